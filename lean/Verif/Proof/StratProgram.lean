import Verif.Proof.Strat
import Mathlib.Data.List.Perm.Basic
import Mathlib.Data.Nat.Find

/-! # The dependency graph of a program: proofs -/

namespace Scallop

namespace Strat

/-- A dependency between names. -/
abbrev Dep := String × String × EdgeKind

/-- Adding a dependency given by names. -/
def addDep (g : Graph) (d : Dep) : Option Graph := g.addDependency d.1 d.2.1 d.2.2

theorem foldlM_flatMap' {α β σ : Type} (f : α → List β) (step : σ → β → Option σ) : ∀ (l : List α) (s : σ),
    (l.flatMap f).foldlM step s = l.foldlM (fun s x => (f x).foldlM step s) s
  | [], s => rfl
  | x :: l, s => by
    simp only [List.flatMap_cons, List.foldlM_append, List.foldlM_cons]
    congr 1
    funext s'
    exact foldlM_flatMap' f step l s'

theorem foldlM_congr' {α σ : Type} {f h : σ → α → Option σ} (hfh : ∀ s x, f s x = h s x) : ∀ (l : List α) (s : σ), l.foldlM f s = l.foldlM h s
  | [], _ => rfl
  | x :: l, s => by simp only [List.foldlM_cons, hfh]; congr 1; funext s'; exact foldlM_congr' hfh l s'

/-- Dependencies recorded for one predicate of the body. -/
def recDeps (r : Rule) (p : String) (k : EdgeKind) : List Dep := (r.head, p, k) :: r.functors.map (fun f => (f, p, k))

/-- Dependencies recorded for one literal. -/
def litDeps (P : Program) (r : Rule) : BodyLit → List Dep
  | .atom p => if P.foreign.contains p then [] else recDeps r p .positive
  | .negAtom p => if P.foreign.contains p then [] else recDeps r p .negative
  | .reduce b gb => recDeps r b .aggregation ++ (match gb with | some q => recDeps r q .aggregation | none => [])
  | .other => []

/-- Dependencies of a goal on the heads. -/
def goalDeps (P : Program) (r : Rule) : BodyLit → List Dep
  | .atom p => if P.foreign.contains p then [] else [(p, r.head, .positive)]
  | _ => []

/-- All dependencies of a rule. -/
def deps (P : Program) (r : Rule) : List Dep :=
  (if r.isGoal then r.body.flatMap (goalDeps P r) else []) ++
  (r.functors.flatMap (fun f => [(f, r.head, .positive), (r.head, f, .positive)]) ++ r.body.flatMap (litDeps P r))

theorem recordDependency_eq (r : Rule) (g : Graph) (p : String) (k : EdgeKind) :
    recordDependency r g p k = (recDeps r p k).foldlM addDep g := by
  simp only [recordDependency, recDeps, List.foldlM_cons, List.foldlM_map]
  rfl

theorem bodyLit_eq (P : Program) (r : Rule) (g : Graph) (l : BodyLit) : bodyLit P r g l = (litDeps P r l).foldlM addDep g := by
  cases l with
  | atom p => simp only [bodyLit, litDeps]; split <;> [rfl; exact recordDependency_eq ..]
  | negAtom p => simp only [bodyLit, litDeps]; split <;> [rfl; exact recordDependency_eq ..]
  | reduce b gb =>
    simp only [bodyLit, litDeps, List.foldlM_append, recordDependency_eq]
    cases gb with
    | none => rfl
    | some q => rfl
  | other => rfl

theorem goalLit_eq (P : Program) (r : Rule) (g : Graph) (l : BodyLit) : goalLit P r g l = (goalDeps P r l).foldlM addDep g := by
  cases l with
  | atom p =>
    simp only [goalLit, goalDeps]
    split
    · rfl
    · simp [addDep]
  | _ => rfl

theorem ruleDeps_eq (P : Program) (g : Graph) (r : Rule) : ruleDeps P g r = (deps P r).foldlM addDep g := by
  simp only [ruleDeps, deps, List.foldlM_append, foldlM_flatMap', functorDeps]
  have h1 : (if r.isGoal then r.body.foldlM (goalLit P r) g else some g) =
      (if r.isGoal then r.body.flatMap (goalDeps P r) else []).foldlM addDep g := by
    split
    · rw [foldlM_flatMap']; exact foldlM_congr' (fun s x => goalLit_eq P r s x) _ _
    · rfl
  rw [h1]
  show Option.bind _ _ = Option.bind _ _
  congr 1
  funext g1
  show Option.bind _ _ = Option.bind _ _
  congr 1
  · apply foldlM_congr'
    intro s f
    simp only [List.foldlM_cons, List.foldlM_nil, addDep]
    show Option.bind _ _ = Option.bind _ (fun x => Option.bind _ _)
    simp
  · funext g2
    exact foldlM_congr' (fun s x => bodyLit_eq P r s x) _ _

theorem dependencyGraph_eq (P : Program) :
    dependencyGraph P = (P.rules.flatMap (deps P)).foldlM addDep (P.relations.foldl Graph.addPredicate Graph.empty) := by
  rw [dependencyGraph, foldlM_flatMap']
  exact foldlM_congr' (fun s x => ruleDeps_eq P s x) _ _

theorem node_none {g : Graph} {p : String} : g.node p = none ↔ p ∉ g.nodes := by
  unfold Graph.node; exact List.idxOf?_eq_none_iff

theorem node_isSome {g : Graph} {p : String} (h : p ∈ g.nodes) : ∃ u, g.node p = some u := by
  cases hn : g.node p with
  | some u => exact ⟨u, rfl⟩
  | none => exact absurd h (node_none.1 hn)

theorem foldl_addPredicate : ∀ (l : List String) (g : Graph), g.nodes.Nodup →
    (l.foldl Graph.addPredicate g).nodes.Nodup ∧ (l.foldl Graph.addPredicate g).edges = g.edges ∧
      ∀ p, p ∈ (l.foldl Graph.addPredicate g).nodes ↔ p ∈ g.nodes ∨ p ∈ l
  | [], g, h => ⟨h, rfl, by simp⟩
  | x :: l, g, h => by
    simp only [List.foldl_cons]
    cases hn : g.node x with
    | some u =>
      have hx : x ∈ g.nodes := List.mem_of_getElem? (node_some hn)
      have e : g.addPredicate x = g := by simp only [Graph.addPredicate, hn]
      rw [e]
      obtain ⟨h1, h2, h3⟩ := foldl_addPredicate l g h
      refine ⟨h1, h2, fun p => ?_⟩
      rw [h3, List.mem_cons]
      constructor
      · rintro (q | q)
        · exact .inl q
        · exact .inr (.inr q)
      · rintro (q | rfl | q)
        · exact .inl q
        · exact .inl hx
        · exact .inr q
    | none =>
      have e : g.addPredicate x = { g with nodes := g.nodes ++ [x] } := by simp only [Graph.addPredicate, hn]
      rw [e]
      obtain ⟨h1, h2, h3⟩ := foldl_addPredicate l { g with nodes := g.nodes ++ [x] } (by
        show (g.nodes ++ [x]).Nodup
        exact List.nodup_append.2 ⟨h, by simp, fun a ha b hb => by simp at hb; subst hb; intro q; exact node_none.1 hn (q ▸ ha)⟩)
      refine ⟨h1, h2, fun p => ?_⟩
      rw [h3, List.mem_cons]
      simp [or_assoc]

/-- An edge between the nodes of two names. -/
def HasEdge (g : Graph) (d : Dep) : Prop := ∃ e ∈ g.edges, g.nodes[e.source]? = some d.1 ∧ g.nodes[e.target]? = some d.2.1 ∧ e.kind = d.2.2

theorem foldlM_addDep : ∀ (ds : List Dep) (g g' : Graph), ds.foldlM addDep g = some g' →
    g'.nodes = g.nodes ∧ (∀ e ∈ g.edges, e ∈ g'.edges) ∧ (∀ d ∈ ds, HasEdge g' d) ∧
    (∀ e ∈ g'.edges, e ∈ g.edges ∨ ∃ d ∈ ds, g.nodes[e.source]? = some d.1 ∧ g.nodes[e.target]? = some d.2.1 ∧ e.kind = d.2.2)
  | [], g, g', h => by
    obtain rfl := Option.some.inj h
    exact ⟨rfl, fun _ h => h, by simp, fun _ h => .inl h⟩
  | d :: ds, g, g', h => by
    rw [List.foldlM_cons] at h
    obtain ⟨g1, h1, h2⟩ := Option.bind_eq_some_iff.1 h
    obtain ⟨n, e1, e2, e3⟩ := foldlM_addDep ds g1 g' h2
    unfold addDep Graph.addDependency at h1
    split at h1
    · rename_i s t hs ht
      have hs' := node_some hs
      have ht' := node_some ht
      obtain rfl := Option.some.inj h1
      refine ⟨n, fun e he => e1 e (List.mem_append.2 (.inl he)), ?_, ?_⟩
      · intro d' hd'
        rcases List.mem_cons.1 hd' with rfl | hd'
        · exact ⟨⟨s, t, d'.2.2⟩, e1 _ (List.mem_append.2 (.inr (by simp))), by rw [n]; exact hs', by rw [n]; exact ht', rfl⟩
        · exact e2 d' hd'
      · intro e he
        rcases e3 e he with q | ⟨d', hd', q⟩
        · rcases List.mem_append.1 q with q | q
          · exact .inl q
          · simp only [List.mem_singleton] at q
            subst q
            exact .inr ⟨d, by simp, hs', ht', rfl⟩
        · exact .inr ⟨d', by simp [hd'], q⟩
    · cases h1

theorem foldlM_addDep_some : ∀ (ds : List Dep) (g : Graph), (∀ d ∈ ds, d.1 ∈ g.nodes ∧ d.2.1 ∈ g.nodes) → ∃ g', ds.foldlM addDep g = some g'
  | [], g, _ => ⟨g, rfl⟩
  | d :: ds, g, h => by
    obtain ⟨h1, h2⟩ := h d (by simp)
    obtain ⟨s, hs⟩ := node_isSome h1
    obtain ⟨t, ht⟩ := node_isSome h2
    have e : addDep g d = some { g with edges := g.edges ++ [⟨s, t, d.2.2⟩] } := by simp only [addDep, Graph.addDependency, hs, ht]
    obtain ⟨g', hg'⟩ := foldlM_addDep_some ds { g with edges := g.edges ++ [⟨s, t, d.2.2⟩] } (fun d' hd' => h d' (by simp [hd']))
    exact ⟨g', by rw [List.foldlM_cons, e]; exact hg'⟩

/-- The dependency graph of a program. -/
theorem dependencyGraph_spec {P : Program} {g : Graph} (h : dependencyGraph P = some g) :
    g.WellFormed ∧ (∀ p, p ∈ g.nodes ↔ p ∈ P.relations) ∧ (∀ r ∈ P.rules, ∀ d ∈ deps P r, HasEdge g d) ∧
    (∀ e ∈ g.edges, ∃ r ∈ P.rules, ∃ d ∈ deps P r, g.nodes[e.source]? = some d.1 ∧ g.nodes[e.target]? = some d.2.1 ∧ e.kind = d.2.2) := by
  rw [dependencyGraph_eq] at h
  obtain ⟨h1, h2, h3⟩ := foldl_addPredicate P.relations Graph.empty (by simp [Graph.empty])
  obtain ⟨q1, q2, q3, q4⟩ := foldlM_addDep _ _ _ h
  have q4' : ∀ e ∈ g.edges, ∃ r ∈ P.rules, ∃ d ∈ deps P r, g.nodes[e.source]? = some d.1 ∧ g.nodes[e.target]? = some d.2.1 ∧ e.kind = d.2.2 := by
    intro e he
    rcases q4 e he with q | ⟨d, hd, q⟩
    · rw [h2] at q; simp [Graph.empty] at q
    · obtain ⟨r, hr, hd⟩ := List.mem_flatMap.1 hd
      exact ⟨r, hr, d, hd, by rw [q1]; exact q⟩
  refine ⟨⟨fun e he => ?_, by rw [q1]; exact h1⟩, fun p => by rw [q1, h3]; simp [Graph.empty],
    fun r hr d hd => q3 d (List.mem_flatMap.2 ⟨r, hr, hd⟩), q4'⟩
  obtain ⟨r, -, d, -, a, b, -⟩ := q4' e he
  exact ⟨(List.getElem?_eq_some_iff.1 a).1, (List.getElem?_eq_some_iff.1 b).1⟩

theorem dependencyGraph_some {P : Program} (h : ∀ r ∈ P.rules, ∀ d ∈ deps P r, d.1 ∈ P.relations ∧ d.2.1 ∈ P.relations) :
    ∃ g, dependencyGraph P = some g := by
  rw [dependencyGraph_eq]
  obtain ⟨-, -, h3⟩ := foldl_addPredicate P.relations Graph.empty (by simp [Graph.empty])
  apply foldlM_addDep_some
  intro d hd
  obtain ⟨r, hr, hd⟩ := List.mem_flatMap.1 hd
  rw [h3, h3]
  exact ⟨.inr (h r hr d hd).1, .inr (h r hr d hd).2⟩

/-! ### Components exist -/

open Classical in
/-- The components, each found from its smallest node. -/
noncomputable def someSccs (g : Graph) : List (List Nat) :=
  ((List.range g.nodes.length).filter (fun u => decide (∀ v, v < u → ¬ (g.Reaches u v ∧ g.Reaches v u)))).map
    (fun u => (List.range g.nodes.length).filter (fun v => decide (g.Reaches u v ∧ g.Reaches v u)))

theorem someSccs_isScc (g : Graph) : g.IsScc (someSccs g) := by
  classical
  have trans : ∀ {a b c}, (g.Reaches a b ∧ g.Reaches b a) → (g.Reaches b c ∧ g.Reaches c b) → g.Reaches a c ∧ g.Reaches c a :=
    fun h1 h2 => ⟨h1.1.trans h2.1, h2.2.trans h1.2⟩
  refine ⟨?_, ?_, ?_⟩
  · intro c hc
    obtain ⟨u, hu, rfl⟩ := List.mem_map.1 hc
    have : u ∈ (List.range g.nodes.length).filter (fun v => decide (g.Reaches u v ∧ g.Reaches v u)) :=
      List.mem_filter.2 ⟨(List.mem_filter.1 hu).1, by simp; exact .refl⟩
    exact List.ne_nil_of_mem this
  · rw [List.perm_ext_iff_of_nodup _ List.nodup_range]
    · intro v
      simp only [someSccs, List.mem_flatten, List.mem_map, exists_exists_and_eq_and, List.mem_filter, List.mem_range, decide_eq_true_eq]
      constructor
      · rintro ⟨u, -, hv, -⟩; exact hv
      · intro hv
        have hex : ∃ u, g.Reaches v u ∧ g.Reaches u v := ⟨v, .refl, .refl⟩
        have hm := Nat.find_spec hex
        have hle : Nat.find hex ≤ v := Nat.find_min' hex ⟨.refl, .refl⟩
        refine ⟨Nat.find hex, ⟨by omega, fun w hw hcon => ?_⟩, hv, hm.2, hm.1⟩
        exact Nat.find_min hex hw (trans hm hcon)
    · rw [List.nodup_flatten]
      constructor
      · intro c hc
        obtain ⟨u, -, rfl⟩ := List.mem_map.1 hc
        exact List.nodup_range.filter _
      · unfold someSccs
        rw [List.pairwise_map]
        have hlt : (List.range g.nodes.length).Pairwise (· < ·) := List.pairwise_lt_range
        refine List.Pairwise.imp_of_mem ?_ (hlt.filter _)
        intro a b ha hb hab v h1 h2
        simp only [List.mem_filter, decide_eq_true_eq] at ha hb h1 h2
        exact hb.2 a hab (trans h2.2 ⟨h1.2.2, h1.2.1⟩)
  · intro c hc u hu v hv
    obtain ⟨x, -, rfl⟩ := List.mem_map.1 hc
    simp only [List.mem_filter, List.mem_range, decide_eq_true_eq] at hu ⊢
    constructor
    · rintro ⟨-, h⟩; exact trans ⟨hu.2.2, hu.2.1⟩ h
    · intro h; exact ⟨hv, trans hu.2 h⟩

end Strat

end Scallop
