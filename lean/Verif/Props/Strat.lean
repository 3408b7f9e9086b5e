import Verif.Proof.StratProgram

/-!
# Property theorems C19, C20, C55: stratification
-/

namespace Scallop

open Strat

/-- A successful stratification comes from an order of the components. -/
theorem Strat.stratify_ok {g : Graph} {sccs : List (List Nat)} (wf : g.WellFormed) (h : g.IsScc sccs) {strata : List Stratum}
    (hs : stratify g sccs = some (.ok strata)) : ∃ ce order, IsCond g sccs ce ∧ order.Nodup ∧ (∀ c, c ∈ order ↔ c < sccs.length) ∧
      Ordered ce order ∧ List.Forall₂ (StratumOf g sccs) order strata ∧ g.badEdge sccs = none := by
  cases hb : g.badEdge sccs with
  | some e => simp [stratify, hb] at hs
  | none =>
    obtain ⟨ce, order, strata', h1, h2, h3, h4, h5, h6⟩ := stratify_spec wf h hb
    rw [hs] at h2
    obtain rfl : strata = strata' := by injection Option.some.inj h2
    exact ⟨ce, order, h1, h3, h4, h5, h6, rfl⟩

theorem Strat.forall₂_get {α β : Type} {R : α → β → Prop} {l : List α} {m : List β} (h : List.Forall₂ R l m) {i : Nat} {b : β}
    (hb : m[i]? = some b) : ∃ a, l[i]? = some a ∧ R a b := by
  induction h generalizing i with
  | nil => simp at hb
  | @cons a b' l m hab h ih =>
    cases i with
    | zero => simp at hb; subst hb; exact ⟨a, by simp, hab⟩
    | succ i => simpa using ih (by simpa using hb)

theorem Strat.forall₂_get' {α β : Type} {R : α → β → Prop} {l : List α} {m : List β} (h : List.Forall₂ R l m) {i : Nat} {a : α}
    (ha : l[i]? = some a) : ∃ b, m[i]? = some b ∧ R a b := by
  induction h generalizing i with
  | nil => simp at ha
  | @cons a' b l m hab h ih =>
    cases i with
    | zero => simp at ha; subst ha; exact ⟨b, by simp, hab⟩
    | succ i => simpa using ih (by simpa using ha)

open Graph (sccOf)

/-- Where a predicate is: the position of the component of its node. -/
theorem Strat.inStratum_iff {g : Graph} {sccs : List (List Nat)} {order : List Nat} {strata : List Stratum}
    (h6 : List.Forall₂ (StratumOf g sccs) order strata) {p : String} {i : Nat} :
    InStratum strata p i ↔ ∃ u c, g.nodes[u]? = some p ∧ sccOf sccs u = some c ∧ order[i]? = some c := by
  constructor
  · rintro ⟨s, hs, hp⟩
    obtain ⟨c, hc, hso⟩ := forall₂_get h6 hs
    rw [hso.1] at hp
    obtain ⟨u, hu, hsc⟩ := mem_members.1 hp
    exact ⟨u, c, hu, hsc, hc⟩
  · rintro ⟨u, c, hu, hsc, hc⟩
    obtain ⟨s, hs, hso⟩ := forall₂_get' h6 hc
    exact ⟨s, hs, by rw [hso.1]; exact mem_members.2 ⟨u, hu, hsc⟩⟩

/-! ### C19 -/

/-- **C19.** In an accepted program each predicate is in exactly one stratum, and strata contain only predicates of the program. -/
theorem c19_partition (g : Graph) (sccs : List (List Nat)) (wf : g.WellFormed) (h : g.IsScc sccs) (strata : List Stratum)
    (hs : stratify g sccs = some (.ok strata)) :
    (∀ p ∈ g.nodes, ∃ i, InStratum strata p i ∧ ∀ j, InStratum strata p j → j = i) ∧
    (∀ p i, InStratum strata p i → p ∈ g.nodes) ∧ (∀ s ∈ strata, s.predicates.Nodup ∧ s.predicates ≠ []) := by
  obtain ⟨ce, order, hcond, nd, hmem, hord, h6, -⟩ := stratify_ok wf h hs
  refine ⟨?_, ?_, ?_⟩
  · intro p hp
    obtain ⟨u, hu', rfl⟩ := List.getElem_of_mem hp
    obtain ⟨c, hc⟩ := sccOf_total h hu'
    obtain ⟨cl, hcl, -⟩ := sccOf_mem hc
    obtain ⟨i, hi, hic⟩ := List.getElem_of_mem ((hmem c).2 (List.getElem?_eq_some_iff.1 hcl).1)
    refine ⟨i, (inStratum_iff h6).2 ⟨u, c, List.getElem?_eq_getElem hu', hc, by rw [List.getElem?_eq_getElem hi, hic]⟩, ?_⟩
    intro j hj
    obtain ⟨u', c', hu2, hc2, hj2⟩ := (inStratum_iff h6).1 hj
    obtain ⟨hu2', hue⟩ := List.getElem?_eq_some_iff.1 hu2
    obtain rfl := wf.names.getElem_inj_iff.1 hue
    rw [hc] at hc2
    obtain rfl := Option.some.inj hc2
    obtain ⟨hj3, hje⟩ := List.getElem?_eq_some_iff.1 hj2
    exact nd.getElem_inj_iff.1 (hje.trans hic.symm)
  · intro p i hi
    obtain ⟨u, c, hu, -⟩ := (inStratum_iff h6).1 hi
    exact List.mem_of_getElem? hu
  · intro s hs
    obtain ⟨i, hi, rfl⟩ := List.getElem_of_mem hs
    obtain ⟨c, hc, hso⟩ := forall₂_get h6 (List.getElem?_eq_getElem hi)
    rw [hso.1]
    constructor
    · unfold Graph.members
      have : ((g.nodes.zipIdx.filter (fun p => sccOf sccs p.2 == some c)).map Prod.fst).Sublist (g.nodes.zipIdx.map Prod.fst) :=
        List.filter_sublist.map _
      rw [List.zipIdx_map_fst] at this
      exact this.nodup wf.names
    · obtain ⟨hc', -⟩ := List.getElem?_eq_some_iff.1 hc
      have hcl := (hmem c).1 (List.mem_of_getElem? hc)
      obtain ⟨u, hu⟩ := List.exists_mem_of_ne_nil _ (h.nonempty _ (List.getElem_mem hcl))
      have hlt := IsScc.mem h (List.getElem_mem hcl) hu
      exact List.ne_nil_of_mem (mem_members.2 ⟨u, List.getElem?_eq_getElem hlt, sccOf_eq h (List.getElem?_eq_getElem hcl) hu⟩)

/-- **C19.** In an accepted program a predicate never depends on a later stratum, and what it depends on through negation or aggregation is in a
strictly earlier stratum. -/
theorem c19_order (g : Graph) (sccs : List (List Nat)) (wf : g.WellFormed) (h : g.IsScc sccs) (strata : List Stratum)
    (hs : stratify g sccs = some (.ok strata)) (e : Edge) (he : e ∈ g.edges) (p q : String) (hp : g.nodes[e.source]? = some p)
    (hq : g.nodes[e.target]? = some q) (i j : Nat) (hi : InStratum strata p i) (hj : InStratum strata q j) :
    j ≤ i ∧ (e.kind ≠ .positive → j < i) := by
  obtain ⟨ce, order, hcond, nd, hmem, hord, h6, hbad⟩ := stratify_ok wf h hs
  obtain ⟨u, c, hu, hc, hio⟩ := (inStratum_iff h6).1 hi
  obtain ⟨v, d, hv, hd, hjo⟩ := (inStratum_iff h6).1 hj
  have hinj : ∀ {a b : Nat} {x : String}, g.nodes[a]? = some x → g.nodes[b]? = some x → a = b := by
    intro a b x ha hb
    obtain ⟨ha1, ha2⟩ := List.getElem?_eq_some_iff.1 ha
    obtain ⟨hb1, hb2⟩ := List.getElem?_eq_some_iff.1 hb
    exact wf.names.getElem_inj_iff.1 (ha2.trans hb2.symm)
  obtain rfl := hinj hu hp
  obtain rfl := hinj hv hq
  have hinjo : ∀ {a b : Nat} {x : Nat}, order[a]? = some x → order[b]? = some x → a = b := by
    intro a b x ha hb
    obtain ⟨ha1, ha2⟩ := List.getElem?_eq_some_iff.1 ha
    obtain ⟨hb1, hb2⟩ := List.getElem?_eq_some_iff.1 hb
    exact nd.getElem_inj_iff.1 (ha2.trans hb2.symm)
  by_cases hcd : c = d
  · subst hcd
    obtain rfl := hinjo hio hjo
    refine ⟨Nat.le_refl _, fun hk => ?_⟩
    obtain ⟨b1, b2⟩ := wf.bounds e he
    have hr := ((sccOf_same h b2 hc).1 hd).2
    obtain ⟨e', hb⟩ := badEdge_isSome h wf he hk hr
    rw [hb] at hbad; cases hbad
  · have hce : (c, d) ∈ ce := (hcond c d).2 ⟨hcd, e, he, hc, hd⟩
    obtain ⟨k, hk, hkd⟩ := hord i c hio d hce
    obtain rfl := hinjo hkd hjo
    exact ⟨Nat.le_of_lt hk, fun _ => hk⟩

/-- **C19** in terms of rules: the predicates of positive body atoms are in the same or an earlier stratum than the head, those that are negated
or aggregated (the group-by predicate included) in a strictly earlier one. -/
theorem c19_rules (P : Program) (g : Graph) (hg : dependencyGraph P = some g) (sccs : List (List Nat)) (h : g.IsScc sccs)
    (strata : List Stratum) (hs : stratify g sccs = some (.ok strata)) (r : Rule) (hr : r ∈ P.rules) (i j : Nat)
    (hi : InStratum strata r.head i) (q : String) (hj : InStratum strata q j) :
    (BodyLit.atom q ∈ r.body → q ∉ P.foreign → j ≤ i) ∧ (BodyLit.negAtom q ∈ r.body → q ∉ P.foreign → j < i) ∧
    (∀ gb, BodyLit.reduce q gb ∈ r.body → j < i) ∧ (∀ b, BodyLit.reduce b (some q) ∈ r.body → j < i) ∧
    (r.isGoal = true → BodyLit.atom q ∈ r.body → q ∉ P.foreign → i = j) ∧ (q ∈ r.functors → i = j) := by
  obtain ⟨wf, -, hedge, -⟩ := dependencyGraph_spec hg
  have key : ∀ k, (r.head, q, k) ∈ deps P r → j ≤ i ∧ (k ≠ .positive → j < i) := by
    intro k hk
    obtain ⟨e, he, h1, h2, h3⟩ := hedge r hr _ hk
    have := c19_order g sccs wf h strata hs e he _ _ h1 h2 i j hi hj
    rw [h3] at this
    exact this
  have key' : ∀ k, (q, r.head, k) ∈ deps P r → i ≤ j := by
    intro k hk
    obtain ⟨e, he, h1, h2, h3⟩ := hedge r hr _ hk
    exact (c19_order g sccs wf h strata hs e he _ _ h1 h2 j i hj hi).1
  have hin : ∀ l ∈ r.body, ∀ d ∈ litDeps P r l, d ∈ deps P r := fun l hl d hd =>
    List.mem_append.2 (.inr (List.mem_append.2 (.inr (List.mem_flatMap.2 ⟨l, hl, hd⟩))))
  have hatom : BodyLit.atom q ∈ r.body → q ∉ P.foreign → j ≤ i := fun hb hf =>
    (key .positive (hin _ hb _ (by simp [litDeps, hf, recDeps]))).1
  refine ⟨hatom, ?_, ?_, ?_, ?_, ?_⟩
  · intro hb hf
    exact (key .negative (hin _ hb _ (by simp [litDeps, hf, recDeps]))).2 (by decide)
  · intro gb hb
    exact (key .aggregation (hin _ hb _ (by simp [litDeps, recDeps]))).2 (by decide)
  · intro b hb
    exact (key .aggregation (hin _ hb _ (by simp [litDeps, recDeps]))).2 (by decide)
  · intro hgoal hb hf
    refine Nat.le_antisymm (key' .positive ?_) (hatom hb hf)
    refine List.mem_append.2 (.inl ?_)
    rw [if_pos hgoal]
    exact List.mem_flatMap.2 ⟨_, hb, by simp [goalDeps, hf]⟩
  · intro hf
    have hm : ∀ d ∈ [(q, r.head, EdgeKind.positive), (r.head, q, EdgeKind.positive)], d ∈ deps P r := fun d hd =>
      List.mem_append.2 (.inr (List.mem_append.2 (.inl (List.mem_flatMap.2 ⟨q, hf, hd⟩))))
    exact Nat.le_antisymm (key' .positive (hm _ (by simp))) (key .positive (hm (r.head, q, .positive) (by simp))).1

/-- C19: a stratum is marked recursive exactly when one of its predicates depends on itself, directly or indirectly. -/
theorem c19_recursive (g : Graph) (sccs : List (List Nat)) (wf : g.WellFormed) (h : g.IsScc sccs) (strata : List Stratum)
    (hs : stratify g sccs = some (.ok strata)) (s : Stratum) (hm : s ∈ strata) :
    s.isRecursive = true ↔ ∃ p ∈ s.predicates, ∃ u, g.nodes[u]? = some p ∧ Relation.TransGen g.DependsOn u u := by
  obtain ⟨ce, order, hcond, nd, hmem, hord, h6, hbad⟩ := stratify_ok wf h hs
  obtain ⟨i, hi, rfl⟩ := List.getElem_of_mem hm
  obtain ⟨c, hc, hp, hcyc⟩ := forall₂_get h6 (List.getElem?_eq_getElem hi)
  have hbound : ∀ {u v}, Relation.TransGen g.DependsOn u v → u < g.nodes.length := by
    intro u v huv
    induction huv with
    | single hab => obtain ⟨e, he, rfl, -⟩ := hab; exact (wf.bounds e he).1
    | tail _ _ ih => exact ih
  have hclt := (hmem c).1 (List.mem_of_getElem? hc)
  -- a dependency cycle stays inside the component
  have hstay : ∀ {u x : Nat}, sccOf sccs u = some c → g.Reaches u x → g.Reaches x u → x < g.nodes.length → sccOf sccs x = some c :=
    fun hu h1 h2 hx => (sccOf_same h hx hu).2 ⟨h1, h2⟩
  rw [hp]
  rcases hmm : g.members sccs c with _ | ⟨p, _ | ⟨q, l⟩⟩
  · rw [hmm] at hcyc
    simp only [Graph.hasCycle, Option.some.injEq] at hcyc
    simp [← hcyc]
  · rw [hmm] at hcyc
    have hpm : p ∈ g.members sccs c := by rw [hmm]; simp
    obtain ⟨u, hu, huc⟩ := mem_members.1 hpm
    simp only [Graph.hasCycle, node_eq wf hu, Option.map_some, Option.some.injEq] at hcyc
    rw [← hcyc, List.any_eq_true]
    constructor
    · rintro ⟨e, he, hee⟩
      simp only [Bool.and_eq_true, beq_iff_eq] at hee
      exact ⟨p, by simp, u, hu, .single ⟨e, he, hee.1, hee.2⟩⟩
    · rintro ⟨p', hp', u', hu', ht⟩
      simp only [List.mem_singleton] at hp'
      subst hp'
      have hnd : u' = u := by
        obtain ⟨a1, a2⟩ := List.getElem?_eq_some_iff.1 hu'
        obtain ⟨b1, b2⟩ := List.getElem?_eq_some_iff.1 hu
        exact wf.names.getElem_inj_iff.1 (a2.trans b2.symm)
      subst hnd
      obtain ⟨x, hx, hxu⟩ := Relation.TransGen.head'_iff.1 ht
      obtain ⟨e, he, h1, h2⟩ := hx
      have hxlt : x < g.nodes.length := h2 ▸ (wf.bounds e he).2
      have hxc := hstay huc (Relation.ReflTransGen.single ⟨e, he, h1, h2⟩) hxu hxlt
      have hxm : g.nodes[x] ∈ g.members sccs c := mem_members.2 ⟨x, List.getElem?_eq_getElem hxlt, hxc⟩
      rw [hmm, List.mem_singleton] at hxm
      have hxu' : x = u' := by
        obtain ⟨b1, b2⟩ := List.getElem?_eq_some_iff.1 hu
        exact wf.names.getElem_inj_iff.1 (hxm.trans b2.symm)
      subst hxu'
      exact ⟨e, he, by simp [h1, h2]⟩
  · rw [hmm] at hcyc
    simp only [Graph.hasCycle, Option.some.injEq] at hcyc
    rw [← hcyc]
    simp only [true_iff]
    have hnd : (g.members sccs c).Nodup := by
      unfold Graph.members
      have : ((g.nodes.zipIdx.filter (fun p => sccOf sccs p.2 == some c)).map Prod.fst).Sublist (g.nodes.zipIdx.map Prod.fst) :=
        List.filter_sublist.map _
      rw [List.zipIdx_map_fst] at this
      exact this.nodup wf.names
    rw [hmm] at hnd
    have hpq : p ≠ q := by intro e; subst e; simp at hnd
    obtain ⟨u, hu, huc⟩ := mem_members.1 (show p ∈ g.members sccs c by rw [hmm]; simp)
    obtain ⟨v, hv, hvc⟩ := mem_members.1 (show q ∈ g.members sccs c by rw [hmm]; simp)
    have huv : u ≠ v := by intro e; subst e; rw [hu] at hv; exact hpq (Option.some.inj hv)
    obtain ⟨r1, r2⟩ := (sccOf_same h (List.getElem?_eq_some_iff.1 hv).1 huc).1 hvc
    refine ⟨p, by simp, u, hu, ?_⟩
    rcases Relation.reflTransGen_iff_eq_or_transGen.1 r1 with e | t
    · exact absurd e.symm huv
    · exact Relation.TransGen.trans_left t r2

/-! ### C20 -/

/-- **C20.** Stratification never panics; it fails exactly when some predicate depends through negation or aggregation on one that depends on
it, and then the error names such a dependency. -/
theorem c20_rejects (g : Graph) (sccs : List (List Nat)) (wf : g.WellFormed) (h : g.IsScc sccs) :
    ((∃ e, stratify g sccs = some (.error e)) ↔ ∃ e ∈ g.edges, e.kind ≠ .positive ∧ g.Reaches e.target e.source) ∧
    ((∃ strata, stratify g sccs = some (.ok strata)) ↔ ¬ ∃ e ∈ g.edges, e.kind ≠ .positive ∧ g.Reaches e.target e.source) ∧
    (∀ e, stratify g sccs = some (.error e) → e ∈ g.edges ∧ e.kind ≠ .positive ∧ g.Reaches e.target e.source) := by
  cases hb : g.badEdge sccs with
  | some e =>
    have hst : stratify g sccs = some (.error e) := by simp [stratify, hb]
    obtain ⟨h1, h2, h3⟩ := badEdge_some h wf hb
    refine ⟨⟨fun _ => ⟨e, h1, h2, h3⟩, fun _ => ⟨e, hst⟩⟩, ⟨?_, fun hn => absurd ⟨e, h1, h2, h3⟩ hn⟩, ?_⟩
    · rintro ⟨s, hs⟩; rw [hst] at hs; cases Option.some.inj hs
    · intro e' he'
      rw [hst] at he'
      injection Option.some.inj he' with he'
      subst he'; exact ⟨h1, h2, h3⟩
  | none =>
    obtain ⟨ce, order, strata, -, hst, -⟩ := stratify_spec wf h hb
    have hno : ¬ ∃ e ∈ g.edges, e.kind ≠ .positive ∧ g.Reaches e.target e.source := by
      rintro ⟨e, he, hk, hr⟩
      obtain ⟨e', he'⟩ := badEdge_isSome h wf he hk hr
      rw [hb] at he'; cases he'
    refine ⟨⟨?_, fun hn => absurd hn hno⟩, ⟨fun _ => hno, fun _ => ⟨strata, hst⟩⟩, ?_⟩
    · rintro ⟨s, hs⟩; rw [hst] at hs; cases Option.some.inj hs
    · intro e' he'; rw [hst] at he'; cases Option.some.inj he'

/-- Every graph has components as assumed of the library. -/
theorem Strat.exists_isScc (g : Graph) : ∃ sccs, g.IsScc sccs := ⟨_, someSccs_isScc g⟩

/-- The result does not depend on the order in which the library returns the components, as far as acceptance is concerned. -/
theorem c20_deterministic (g : Graph) (wf : g.WellFormed) (sccs sccs' : List (List Nat)) (h : g.IsScc sccs) (h' : g.IsScc sccs') :
    (∃ s, stratify g sccs = some (.ok s)) ↔ (∃ s, stratify g sccs' = some (.ok s)) := by
  rw [(c20_rejects g sccs wf h).2.1, (c20_rejects g sccs' wf h').2.1]

/-- `path(x,y) = edge(x,y) or (path(x,z) and edge(z,y))`, `n(x) = count(path)`, `iso = not path`. -/
def exProgram : Strat.Program :=
  ⟨["edge", "path", "n", "iso"], ["range"],
    [⟨"path", false, [], [.atom "edge"]⟩, ⟨"path", false, [], [.atom "path", .atom "edge", .other]⟩,
     ⟨"n", false, [], [.reduce "path" none, .atom "range"]⟩, ⟨"iso", false, [], [.negAtom "path"]⟩]⟩

example : (dependencyGraph exProgram).bind (fun g => stratify g [[0], [1], [2], [3]]) =
    some (.ok [⟨["edge"], false⟩, ⟨["path"], true⟩, ⟨["iso"], false⟩, ⟨["n"], false⟩]) := by decide +kernel

example : ∃ g, dependencyGraph exProgram = some g ∧ g.WellFormed ∧ ∃ sccs, g.IsScc sccs := by
  obtain ⟨g, hg⟩ : ∃ g, dependencyGraph exProgram = some g := ⟨_, rfl⟩
  exact ⟨g, hg, (dependencyGraph_spec hg).1, exists_isScc g⟩

example : stratify ⟨["p", "q"], [⟨0, 1, .negative⟩, ⟨1, 0, .positive⟩]⟩ [[0, 1]] = some (.error ⟨0, 1, .negative⟩) := by decide +kernel

/-! ### C55 -/

/-- **C55.** Removing unused relations: no output is removed; a rule is kept exactly when its head is, and then all the relations its body
mentions are kept, so that the dependency graph of the remaining program is computed without a panic; and every relation that an output
depends on, directly or indirectly, is kept. -/
theorem c55_remove_unused (P : Program) (g : Graph) (hg : dependencyGraph P = some g) (reach : Nat → Nat → Bool)
    (hreach : ∀ a b, reach a b = true ↔ g.Reaches a b) (outputs : List String) (ho : ∀ p ∈ outputs, p ∈ P.relations) :
    ∃ rem, unusedRelations g reach outputs = some rem ∧ (∀ p ∈ outputs, p ∈ (P.remove rem).relations) ∧
      (∀ p, p ∈ (P.remove rem).relations ↔ p ∈ P.relations ∧ ∃ o ∈ outputs, ∃ a b, g.nodes[a]? = some o ∧ g.nodes[b]? = some p ∧ g.Reaches a b) ∧
      (∀ r, r ∈ (P.remove rem).rules ↔ r ∈ P.rules ∧ r.head ∉ rem) ∧
      (∃ g', dependencyGraph (P.remove rem) = some g') := by
  obtain ⟨wf, hnodes, hedge, -⟩ := dependencyGraph_spec hg
  have hids : ∀ (os : List String), (∀ p ∈ os, p ∈ P.relations) → ∃ ids, os.mapM g.node = some ids ∧
      ∀ a, a ∈ ids ↔ ∃ o ∈ os, g.nodes[a]? = some o := by
    intro os
    induction os with
    | nil => intro _; exact ⟨[], rfl, by simp⟩
    | cons o os ih =>
      intro hos
      obtain ⟨ids, h1, h2⟩ := ih (fun p hp => hos p (by simp [hp]))
      obtain ⟨u, hu⟩ := node_isSome ((hnodes o).2 (hos o (by simp)))
      refine ⟨u :: ids, by simp [List.mapM_cons, hu, h1], fun a => ?_⟩
      rw [List.mem_cons, h2]
      constructor
      · rintro (rfl | ⟨o', ho', hx⟩)
        · exact ⟨o, by simp, node_some hu⟩
        · exact ⟨o', by simp [ho'], hx⟩
      · rintro ⟨o', ho', hx⟩
        rcases List.mem_cons.1 ho' with rfl | ho'
        · left
          have := node_eq wf hx
          rw [hu] at this
          exact (Option.some.inj this).symm
        · exact .inr ⟨o', ho', hx⟩
  obtain ⟨ids, h1, h2⟩ := hids outputs ho
  have hrem : ∀ p, p ∈ ((g.nodes.zipIdx.filter (fun p => !outputs.contains p.1 && !ids.any (fun o => reach o p.2))).map Prod.fst) ↔
      p ∈ P.relations ∧ ¬ ∃ o ∈ outputs, ∃ a b, g.nodes[a]? = some o ∧ g.nodes[b]? = some p ∧ g.Reaches a b := by
    intro p
    simp only [List.mem_map, List.mem_filter, Prod.exists, exists_and_right, exists_eq_right, Bool.and_eq_true, Bool.not_eq_true',
      List.contains_eq_mem, decide_eq_false_iff_not, List.any_eq_false]
    constructor
    · rintro ⟨u, hu, hno, hany⟩
      rw [List.mk_mem_zipIdx_iff_getElem?] at hu
      refine ⟨(hnodes p).1 (List.mem_of_getElem? hu), ?_⟩
      rintro ⟨o, hoo, a, b, ha, hb, hr⟩
      have hbu : b = u := by
        have e1 := node_eq wf hb
        rw [node_eq wf hu] at e1
        exact (Option.some.inj e1).symm
      subst hbu
      exact hany a ((h2 a).2 ⟨o, hoo, ha⟩) ((hreach a b).2 hr)
    · rintro ⟨hp, hno⟩
      obtain ⟨u, hu⟩ := node_isSome ((hnodes p).2 hp)
      have hu' := node_some hu
      refine ⟨u, by rw [List.mk_mem_zipIdx_iff_getElem?]; exact hu', ?_, ?_⟩
      · intro hpo
        exact hno ⟨p, hpo, u, u, hu', hu', .refl⟩
      · intro a ha hr
        obtain ⟨o, hoo, hao⟩ := (h2 a).1 ha
        exact hno ⟨o, hoo, a, u, hao, hu', (hreach a u).1 hr⟩
  obtain ⟨rem, hremE, hrem⟩ : ∃ rem, unusedRelations g reach outputs = some rem ∧ ∀ p, p ∈ rem ↔
      p ∈ P.relations ∧ ¬ ∃ o ∈ outputs, ∃ a b, g.nodes[a]? = some o ∧ g.nodes[b]? = some p ∧ g.Reaches a b :=
    ⟨_, by simp only [unusedRelations, h1], hrem⟩
  refine ⟨rem, hremE, ?_, ?_, ?_, ?_⟩
  · intro p hp
    simp only [Program.remove, List.mem_filter, Bool.not_eq_true', List.contains_eq_mem, decide_eq_false_iff_not, hrem]
    refine ⟨ho p hp, fun hcon => hcon.2 ?_⟩
    obtain ⟨u, hu⟩ := node_isSome ((hnodes p).2 (ho p hp))
    exact ⟨p, hp, u, u, node_some hu, node_some hu, .refl⟩
  · intro p
    simp only [Program.remove, List.mem_filter, Bool.not_eq_true', List.contains_eq_mem, decide_eq_false_iff_not, hrem]
    refine and_congr_right fun hp => ?_
    rw [not_and, not_not]
    exact ⟨fun hq => hq hp, fun hq _ => hq⟩
  · intro r
    simp only [Program.remove, List.mem_filter, Bool.not_eq_true', List.contains_eq_mem, decide_eq_false_iff_not]
  · apply dependencyGraph_some
    intro r hr d hd
    simp only [Program.remove, List.mem_filter, Bool.not_eq_true', List.contains_eq_mem, decide_eq_false_iff_not, hrem] at hr ⊢
    obtain ⟨hrP, hkeep⟩ := hr
    have hd' : d ∈ deps P r := hd
    obtain ⟨e, he, n1, n2, -⟩ := hedge r hrP d hd'
    have m1 := (hnodes _).1 (List.mem_of_getElem? n1)
    have m2 := (hnodes _).1 (List.mem_of_getElem? n2)
    -- the head is reached, and it has edges to everything its dependencies mention
    have hhead : ∀ x, x ∈ P.relations → (∃ k, (r.head, x, k) ∈ deps P r) ∨ x = r.head → r.head ∈ P.relations →
        ∃ o ∈ outputs, ∃ a b, g.nodes[a]? = some o ∧ g.nodes[b]? = some x ∧ g.Reaches a b := by
      intro x hx hxd hh
      have : ∃ o ∈ outputs, ∃ a b, g.nodes[a]? = some o ∧ g.nodes[b]? = some r.head ∧ g.Reaches a b := by
        by_contra hcon; exact hkeep ⟨hh, hcon⟩
      obtain ⟨o, hoo, a, b, ha, hb, hab⟩ := this
      rcases hxd with ⟨k, hk⟩ | rfl
      · obtain ⟨e', he', q1, q2, -⟩ := hedge r hrP _ hk
        have hbe : b = e'.source := by
          have e1 := node_eq wf hb
          rw [node_eq wf q1] at e1
          exact (Option.some.inj e1).symm
        subst hbe
        exact ⟨o, hoo, a, e'.target, ha, q2, hab.tail ⟨e', he', rfl, rfl⟩⟩
      · exact ⟨o, hoo, a, b, ha, hb, hab⟩
    have hcases : ((∃ k, (r.head, d.1, k) ∈ deps P r) ∨ d.1 = r.head) ∧ ((∃ k, (r.head, d.2.1, k) ∈ deps P r) ∨ d.2.1 = r.head) ∧
        (d.1 = r.head ∨ d.2.1 = r.head ∨ ∃ k, (r.head, d.2.1, k) ∈ deps P r) := by
      have hrec : ∀ (p : String) (k : EdgeKind), (∀ d' ∈ recDeps r p k, d' ∈ deps P r) → d ∈ recDeps r p k →
          ((∃ k, (r.head, d.1, k) ∈ deps P r) ∨ d.1 = r.head) ∧ ((∃ k, (r.head, d.2.1, k) ∈ deps P r) ∨ d.2.1 = r.head) ∧
          (d.1 = r.head ∨ d.2.1 = r.head ∨ ∃ k, (r.head, d.2.1, k) ∈ deps P r) := by
        intro p k hsub hdm
        have hp : ∃ k, (r.head, p, k) ∈ deps P r := ⟨k, hsub _ (by simp [recDeps])⟩
        simp only [recDeps, List.mem_cons, List.mem_map] at hdm
        rcases hdm with rfl | ⟨f, hf, rfl⟩
        · exact ⟨.inr rfl, .inl hp, .inl rfl⟩
        · exact ⟨.inl ⟨.positive, List.mem_append.2 (.inr (List.mem_append.2 (.inl (List.mem_flatMap.2 ⟨f, hf, by simp⟩))))⟩, .inl hp, .inr (.inr hp)⟩
      have hall := hd'
      rw [deps, List.mem_append, List.mem_append] at hall
      rcases hall with hall | hall | hall
      · split at hall
        · obtain ⟨l, hl, hdl⟩ := List.mem_flatMap.1 hall
          cases l with
          | atom p =>
            simp only [goalDeps] at hdl
            split at hdl
            · cases hdl
            · rename_i hf
              simp only [List.mem_singleton] at hdl
              subst hdl
              refine ⟨.inl ⟨.positive, List.mem_append.2 (.inr (List.mem_append.2 (.inr (List.mem_flatMap.2 ⟨_, hl, ?_⟩))))⟩, .inr rfl, .inr (.inl rfl)⟩
              simp only [litDeps, if_neg hf, recDeps]; exact List.mem_cons_self
          | negAtom p => cases hdl
          | reduce b gb => cases hdl
          | other => cases hdl
        · cases hall
      · obtain ⟨f, hf, hdf⟩ := List.mem_flatMap.1 hall
        have hfd : (r.head, f, EdgeKind.positive) ∈ deps P r :=
          List.mem_append.2 (.inr (List.mem_append.2 (.inl (List.mem_flatMap.2 ⟨f, hf, by simp⟩))))
        simp only [List.mem_cons, List.not_mem_nil, or_false] at hdf
        rcases hdf with rfl | rfl
        · exact ⟨.inl ⟨_, hfd⟩, .inr rfl, .inr (.inl rfl)⟩
        · exact ⟨.inr rfl, .inl ⟨_, hfd⟩, .inl rfl⟩
      · obtain ⟨l, hl, hdl⟩ := List.mem_flatMap.1 hall
        have hsub : ∀ d' ∈ litDeps P r l, d' ∈ deps P r := fun d' hd' =>
          List.mem_append.2 (.inr (List.mem_append.2 (.inr (List.mem_flatMap.2 ⟨l, hl, hd'⟩))))
        cases l with
        | atom p =>
          by_cases hf : P.foreign.contains p = true
          · simp only [litDeps, if_pos hf] at hdl; cases hdl
          · simp only [litDeps, if_neg hf] at hdl hsub; exact hrec _ _ hsub hdl
        | negAtom p =>
          by_cases hf : P.foreign.contains p = true
          · simp only [litDeps, if_pos hf] at hdl; cases hdl
          · simp only [litDeps, if_neg hf] at hdl hsub; exact hrec _ _ hsub hdl
        | reduce b gb =>
          simp only [litDeps] at hdl hsub
          rcases List.mem_append.1 hdl with q | q
          · exact hrec _ _ (fun d' hd' => hsub d' (List.mem_append.2 (.inl hd'))) q
          · cases gb with
            | none => cases q
            | some p => exact hrec _ _ (fun d' hd' => hsub d' (List.mem_append.2 (.inr hd'))) q
        | other => cases hdl
    have hh : r.head ∈ P.relations := by
      rcases hcases.2.2 with e1 | e1 | ⟨k, hk⟩
      · exact e1 ▸ m1
      · exact e1 ▸ m2
      · obtain ⟨e', -, q1, -⟩ := hedge r hrP _ hk
        exact (hnodes _).1 (List.mem_of_getElem? q1)
    exact ⟨⟨m1, fun hcon => hcon.2 (hhead _ m1 hcases.1 hh)⟩, ⟨m2, fun hcon => hcon.2 (hhead _ m2 hcases.2.1 hh)⟩⟩

example : (dependencyGraph exProgram).bind (fun g => unusedRelations g (fun a b => a == b || (a == 1 && b == 0) || (a == 2 && b != 3) || (a == 3 && b != 2)) ["n"]) =
    some ["iso"] := by decide +kernel

end Scallop
