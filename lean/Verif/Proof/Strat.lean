import Verif.Spec.Strat
import Mathlib.Data.List.Nodup
import Mathlib.Data.Finset.Card
import Mathlib.Data.Finset.Range
import Mathlib.Data.Finset.Filter

/-! # Stratification: proofs -/

namespace Scallop

namespace Strat

open Graph (sccOf condense)

variable {g : Graph} {sccs : List (List Nat)}

/-! ### Components -/

theorem disjoint_of_nodup_flatten {sccs : List (List Nat)} (nd : sccs.flatten.Nodup) {i j : Nat} {c d : List Nat} (hi : sccs[i]? = some c)
    (hj : sccs[j]? = some d) {u : Nat} (hc : u ∈ c) (hd : u ∈ d) : i = j := by
  rw [List.nodup_flatten] at nd
  by_contra hne
  obtain ⟨hi', rfl⟩ := List.getElem?_eq_some_iff.1 hi
  obtain ⟨hj', rfl⟩ := List.getElem?_eq_some_iff.1 hj
  rcases Nat.lt_or_gt_of_ne hne with h | h
  · exact List.pairwise_iff_getElem.1 nd.2 i j hi' hj' h hc hd
  · exact List.pairwise_iff_getElem.1 nd.2 j i hj' hi' h hd hc

theorem IsScc.nodup (h : g.IsScc sccs) : sccs.flatten.Nodup := h.partition.nodup_iff.2 List.nodup_range

theorem IsScc.mem (h : g.IsScc sccs) {c : List Nat} (hc : c ∈ sccs) {u : Nat} (hu : u ∈ c) : u < g.nodes.length := by
  have : u ∈ sccs.flatten := List.mem_flatten.2 ⟨c, hc, hu⟩
  simpa using h.partition.mem_iff.1 this

theorem sccOf_eq (h : g.IsScc sccs) {i : Nat} {c : List Nat} (hi : sccs[i]? = some c) {u : Nat} (hu : u ∈ c) : sccOf sccs u = some i := by
  obtain ⟨hi', rfl⟩ := List.getElem?_eq_some_iff.1 hi
  unfold sccOf
  have hs : (sccs.findIdx? (fun c => c.contains u)).isSome := by
    rw [List.findIdx?_isSome, List.any_eq_true]
    exact ⟨_, List.getElem_mem hi', by simpa using hu⟩
  obtain ⟨j, hj⟩ := Option.isSome_iff_exists.1 hs
  rw [hj]
  obtain ⟨hj', hp, -⟩ := List.findIdx?_eq_some_iff_getElem.1 hj
  congr 1
  exact disjoint_of_nodup_flatten (IsScc.nodup h) (List.getElem?_eq_getElem hj') hi (by simpa using hp) hu

theorem sccOf_mem {u i : Nat} (h : sccOf sccs u = some i) : ∃ c, sccs[i]? = some c ∧ u ∈ c := by
  obtain ⟨hj', hp, -⟩ := List.findIdx?_eq_some_iff_getElem.1 h
  exact ⟨_, List.getElem?_eq_getElem hj', by simpa using hp⟩

theorem sccOf_total (h : g.IsScc sccs) {u : Nat} (hu : u < g.nodes.length) : ∃ i, sccOf sccs u = some i := by
  have : u ∈ sccs.flatten := h.partition.mem_iff.2 (by simpa using hu)
  obtain ⟨c, hc, huc⟩ := List.mem_flatten.1 this
  obtain ⟨i, hi, rfl⟩ := List.getElem_of_mem hc
  exact ⟨i, sccOf_eq h (List.getElem?_eq_getElem hi) huc⟩

theorem sccOf_same (h : g.IsScc sccs) {u v i : Nat} (hv : v < g.nodes.length) (hi : sccOf sccs u = some i) :
    sccOf sccs v = some i ↔ g.Reaches u v ∧ g.Reaches v u := by
  obtain ⟨c, hc, hu⟩ := sccOf_mem hi
  have hcm := List.mem_of_getElem? hc
  rw [← h.same c hcm u hu v hv]
  constructor
  · intro hv'
    obtain ⟨d, hd, hvd⟩ := sccOf_mem hv'
    rw [hc] at hd
    obtain rfl := Option.some.inj hd
    exact hvd
  · intro hvc
    exact sccOf_eq h hc hvc

/-! ### The condensed graph -/

theorem condense_spec (h : g.IsScc sccs) : ∀ (es : List Edge) (acc : List (Nat × Nat)),
    (∀ e ∈ es, e.source < g.nodes.length ∧ e.target < g.nodes.length) →
    ∃ ce, condense sccs es acc = some ce ∧ ∀ s t, (s, t) ∈ ce ↔ (s, t) ∈ acc ∨
      (s ≠ t ∧ ∃ e ∈ es, sccOf sccs e.source = some s ∧ sccOf sccs e.target = some t)
  | [], acc, _ => ⟨acc, rfl, by simp⟩
  | e :: es, acc, hb => by
    obtain ⟨h1, h2⟩ := hb e (by simp)
    obtain ⟨s, hs⟩ := sccOf_total h h1
    obtain ⟨t, ht⟩ := sccOf_total h h2
    obtain ⟨ce, hce, hmem⟩ := condense_spec h es (if s = t ∨ (s, t) ∈ acc then acc else acc ++ [(s, t)]) (fun e' he' => hb e' (by simp [he']))
    refine ⟨ce, by simp only [condense, hs, ht, hce], fun a b => ?_⟩
    rw [hmem]
    constructor
    · rintro (h' | ⟨hne, e', he', q⟩)
      · split at h'
        · exact .inl h'
        · rename_i hn
          rcases List.mem_append.1 h' with h' | h'
          · exact .inl h'
          · simp only [List.mem_singleton, Prod.mk.injEq] at h'
            obtain ⟨rfl, rfl⟩ := h'
            exact .inr ⟨fun q => hn (.inl q), e, by simp, hs, ht⟩
      · exact .inr ⟨hne, e', by simp [he'], q⟩
    · rintro (h' | ⟨hne, e', he', q1, q2⟩)
      · left; split
        · exact h'
        · exact List.mem_append.2 (.inl h')
      · rcases List.mem_cons.1 he' with rfl | he'
        · rw [hs] at q1; rw [ht] at q2
          obtain rfl := Option.some.inj q1
          obtain rfl := Option.some.inj q2
          left
          split
          · rename_i q
            rcases q with q | q
            · exact absurd q hne
            · exact q
          · simp
        · exact .inr ⟨hne, e', he', q1, q2⟩

/-- What the condensed graph is. -/
def IsCond (g : Graph) (sccs : List (List Nat)) (ce : List (Nat × Nat)) : Prop :=
  ∀ s t, (s, t) ∈ ce ↔ s ≠ t ∧ ∃ e ∈ g.edges, sccOf sccs e.source = some s ∧ sccOf sccs e.target = some t

open Classical in
/-- The number of nodes reachable from a component. -/
noncomputable def rank (g : Graph) (sccs : List (List Nat)) (i : Nat) : Nat :=
  ((Finset.range g.nodes.length).filter (fun v => ∃ u, sccOf sccs u = some i ∧ g.Reaches u v)).card

theorem rank_lt (h : g.IsScc sccs) (wf : g.WellFormed) {ce : List (Nat × Nat)} (hc : IsCond g sccs ce) {s t : Nat} (hst : (s, t) ∈ ce) :
    rank g sccs t < rank g sccs s := by
  classical
  obtain ⟨hne, e, he, h1, h2⟩ := (hc s t).1 hst
  obtain ⟨b1, b2⟩ := wf.bounds e he
  have hstep : g.Reaches e.source e.target := Relation.ReflTransGen.single ⟨e, he, rfl, rfl⟩
  apply Finset.card_lt_card
  rw [Finset.ssubset_iff_of_subset]
  · refine ⟨e.source, Finset.mem_filter.2 ⟨Finset.mem_range.2 b1, e.source, h1, .refl⟩, ?_⟩
    intro hmem
    obtain ⟨-, u, hu, hr⟩ := Finset.mem_filter.1 hmem
    have hu' : u < g.nodes.length := by
      obtain ⟨c, hcc, huc⟩ := sccOf_mem hu
      exact IsScc.mem h (List.mem_of_getElem? hcc) huc
    obtain ⟨q1, q2⟩ := (sccOf_same h hu' h2).1 hu
    have : sccOf sccs e.source = some t := (sccOf_same h b1 h2).2 ⟨q1.trans hr, hstep⟩
    rw [h1] at this
    exact hne (Option.some.inj this)
  · intro v hv
    obtain ⟨hv1, u, hu, hr⟩ := Finset.mem_filter.1 hv
    have hu' : u < g.nodes.length := by
      obtain ⟨c, hcc, huc⟩ := sccOf_mem hu
      exact IsScc.mem h (List.mem_of_getElem? hcc) huc
    obtain ⟨q1, q2⟩ := (sccOf_same h hu' h2).1 hu
    exact Finset.mem_filter.2 ⟨hv1, e.source, h1, hstep.trans (q1.trans hr)⟩

theorem mem_targets {ce : List (Nat × Nat)} {c t : Nat} : t ∈ targets ce c ↔ (c, t) ∈ ce := by
  unfold targets
  simp only [List.mem_map, List.mem_filter, beq_iff_eq, Prod.exists]
  constructor
  · rintro ⟨a, b, ⟨h1, h2⟩, h3⟩; subst h2; subst h3; exact h1
  · intro h; exact ⟨c, t, ⟨h, rfl⟩, rfl⟩

theorem mem_sources {ce : List (Nat × Nat)} {c s : Nat} : s ∈ sources ce c ↔ (s, c) ∈ ce := by
  unfold sources
  simp only [List.mem_reverse, List.mem_map, List.mem_filter, beq_iff_eq, Prod.exists]
  constructor
  · rintro ⟨a, b, ⟨h1, h2⟩, h3⟩; subst h2; subst h3; exact h1
  · intro h; exact ⟨s, c, ⟨h, rfl⟩, rfl⟩

/-! ### The loop -/

/-- Every target of a listed component is listed before it. -/
def Ordered (ce : List (Nat × Nat)) (l : List Nat) : Prop :=
  ∀ i c : Nat, l[i]? = some c → ∀ t : Nat, (c, t) ∈ ce → ∃ j : Nat, j < i ∧ l[j]? = some t

theorem Ordered.snoc {ce : List (Nat × Nat)} {l : List Nat} (h : Ordered ce l) {n : Nat} (hn : ∀ t, (n, t) ∈ ce → t ∈ l) :
    Ordered ce (l ++ [n]) := by
  intro i c hi t ht
  rcases Nat.lt_or_ge i l.length with hlt | hge
  · rw [List.getElem?_append_left hlt] at hi
    obtain ⟨j, hj, hjt⟩ := h i c hi t ht
    exact ⟨j, hj, by rw [List.getElem?_append_left (by omega)]; exact hjt⟩
  · rw [List.getElem?_append_right hge] at hi
    have hi0 : i - l.length = 0 := by
      by_contra h0
      obtain ⟨k, hk⟩ := Nat.exists_eq_succ_of_ne_zero h0
      rw [hk] at hi
      simp at hi
    rw [hi0] at hi
    simp only [List.getElem?_cons_zero, Option.some.injEq] at hi
    subst hi
    obtain ⟨j, hj, hjt⟩ := List.getElem_of_mem (hn t ht)
    exact ⟨j, by omega, by rw [List.getElem?_append_left hj, List.getElem?_eq_getElem hj, hjt]⟩

theorem enqueue_spec (ce : List (Nat × Nat)) : ∀ (ns visited fringe : List Nat), visited.Nodup → Ordered ce visited →
    ∃ new, enqueue ce ns (visited, fringe) = (visited ++ new, fringe ++ new) ∧ (visited ++ new).Nodup ∧ Ordered ce (visited ++ new) ∧
      (∀ n ∈ new, n ∈ ns) ∧ (∀ n ∈ ns, n ∈ visited ++ new ∨ ∃ t, (n, t) ∈ ce ∧ t ∉ visited)
  | [], visited, fringe, nd, ho => ⟨[], by simp [enqueue], by simpa using nd, by simpa using ho, by simp, by simp⟩
  | n :: ns, visited, fringe, nd, ho => by
    by_cases hv : n ∈ visited
    · obtain ⟨new, e, h1, h2, h3, h4⟩ := enqueue_spec ce ns visited fringe nd ho
      refine ⟨new, by simp only [enqueue, List.contains_eq_mem, hv, decide_true, if_true]; exact e, h1, h2,
        fun m hm => by simp [h3 m hm], ?_⟩
      intro m hm
      rcases List.mem_cons.1 hm with rfl | hm
      · exact .inl (List.mem_append.2 (.inl hv))
      · exact h4 m hm
    · by_cases ha : ∀ t, (n, t) ∈ ce → t ∈ visited
      · obtain ⟨new, e, h1, h2, h3, h4⟩ := enqueue_spec ce ns (visited ++ [n]) (fringe ++ [n])
          (List.nodup_append.2 ⟨nd, by simp, fun a ha' b hb => by simp at hb; subst hb; intro q; exact hv (q ▸ ha')⟩) (ho.snoc ha)
        refine ⟨n :: new, ?_, by simpa using h1, by simpa using h2, ?_, ?_⟩
        · have hall : (targets ce n).all (fun t => visited.contains t) = true := by
            rw [List.all_eq_true]; intro t ht; simpa using ha t (mem_targets.1 ht)
          simp only [enqueue, List.contains_eq_mem, hv, decide_false, Bool.false_eq_true, if_false]
          simp only [List.contains_eq_mem] at hall
          rw [if_pos hall, e]; simp
        · intro m hm
          rcases List.mem_cons.1 hm with rfl | hm
          · simp
          · simp [h3 m hm]
        · intro m hm
          rcases List.mem_cons.1 hm with rfl | hm
          · left; simp
          · rcases h4 m hm with h | ⟨t, ht, hnt⟩
            · left; simpa using h
            · exact .inr ⟨t, ht, fun q => hnt (List.mem_append.2 (.inl q))⟩
      · obtain ⟨new, e, h1, h2, h3, h4⟩ := enqueue_spec ce ns visited fringe nd ho
        have hall : ¬ ((targets ce n).all (fun t => visited.contains t) = true) := by
          rw [List.all_eq_true]; intro h; exact ha (fun t ht => by simpa using h t (mem_targets.2 ht))
        refine ⟨new, ?_, h1, h2, fun m hm => by simp [h3 m hm], ?_⟩
        · simp only [List.contains_eq_mem] at hall
          simp only [enqueue, List.contains_eq_mem, hv, decide_false, Bool.false_eq_true, if_false]
          rw [if_neg hall]; exact e
        · intro m hm
          rcases List.mem_cons.1 hm with rfl | hm
          · right
            by_contra hcon
            exact ha (fun t ht => by by_contra hnt; exact hcon ⟨t, ht, hnt⟩)
          · exact h4 m hm

theorem mem_members {c : Nat} {p : String} : p ∈ g.members sccs c ↔ ∃ u, g.nodes[u]? = some p ∧ sccOf sccs u = some c := by
  unfold Graph.members
  simp only [List.mem_map, List.mem_filter, beq_iff_eq, Prod.exists, exists_and_right, exists_eq_right]
  refine exists_congr fun u => and_congr_left fun _ => ?_
  rw [List.mk_mem_zipIdx_iff_getElem?]

theorem node_eq (wf : g.WellFormed) {u : Nat} {p : String} (h : g.nodes[u]? = some p) : g.node p = some u := by
  obtain ⟨hu, rfl⟩ := List.getElem?_eq_some_iff.1 h
  unfold Graph.node
  rw [List.idxOf?_eq_some_iff]
  refine ⟨hu, rfl, fun j hj => ?_⟩
  intro hjp
  have := wf.names.getElem_inj_iff.1 hjp
  omega

theorem node_some {p : String} {u : Nat} (h : g.node p = some u) : g.nodes[u]? = some p := by
  unfold Graph.node at h
  rw [List.idxOf?_eq_some_iff] at h
  obtain ⟨hu, hp, -⟩ := h
  rw [List.getElem?_eq_getElem hu, hp]

theorem hasCycle_some (wf : g.WellFormed) (c : Nat) : ∃ r, g.hasCycle (g.members sccs c) = some r := by
  rcases hm : g.members sccs c with _ | ⟨p, _ | ⟨q, l⟩⟩
  · exact ⟨_, rfl⟩
  · have : p ∈ g.members sccs c := by rw [hm]; simp
    obtain ⟨u, hu, -⟩ := mem_members.1 this
    exact ⟨_, by simp only [Graph.hasCycle, node_eq wf hu]; rfl⟩
  · exact ⟨_, rfl⟩

/-- The stratum made of a component. -/
def StratumOf (g : Graph) (sccs : List (List Nat)) (c : Nat) (s : Stratum) : Prop :=
  s.predicates = g.members sccs c ∧ g.hasCycle (g.members sccs c) = some s.isRecursive

theorem loop_spec (wf : g.WellFormed) (ce : List (Nat × Nat)) (m : Nat) (hce : ∀ s t, (s, t) ∈ ce → s < m ∧ t < m)
    (rk : Nat → Nat) (hrk : ∀ s t, (s, t) ∈ ce → rk t < rk s) : ∀ (fuel : Nat) (done fringe : List Nat) (strata : List Stratum),
    m ≤ done.length + fuel → (done ++ fringe).Nodup → (∀ c ∈ done ++ fringe, c < m) → Ordered ce (done ++ fringe) →
    (∀ c, c < m → c ∉ done ++ fringe → ∃ t, (c, t) ∈ ce ∧ t ∉ done) → List.Forall₂ (StratumOf g sccs) done strata →
    ∃ order strata', loop g sccs ce fuel (done ++ fringe) fringe strata = some strata' ∧ order.Nodup ∧ (∀ c, c ∈ order ↔ c < m) ∧
      Ordered ce order ∧ List.Forall₂ (StratumOf g sccs) order strata' := by
  intro fuel
  induction fuel with
  | zero =>
    intro done fringe strata hlen nd hlt ho hcov hs
    cases fringe with
    | nil =>
      simp only [List.append_nil] at nd hlt ho hcov
      refine ⟨done, strata, by simp [loop], nd, fun c => ⟨hlt c, fun hc => ?_⟩, ho, hs⟩
      induction hr : rk c using Nat.strong_induction_on generalizing c with
      | _ r ih =>
        by_contra hn
        obtain ⟨t, ht, hnt⟩ := hcov c hc hn
        exact hnt (ih (rk t) (hr ▸ hrk c t ht) t (hce c t ht).2 rfl)
    | cons c fr =>
      exfalso
      have hsub : (done ++ c :: fr) ⊆ List.range m := fun x hx => List.mem_range.2 (hlt x hx)
      have := (List.subperm_of_subset nd hsub).length_le
      simp at this; omega
  | succ fuel ih =>
    intro done fringe strata hlen nd hlt ho hcov hs
    cases fringe with
    | nil =>
      simp only [List.append_nil] at nd hlt ho hcov
      refine ⟨done, strata, by simp [loop], nd, fun c => ⟨hlt c, fun hc => ?_⟩, ho, hs⟩
      induction hr : rk c using Nat.strong_induction_on generalizing c with
      | _ r ih =>
        by_contra hn
        obtain ⟨t, ht, hnt⟩ := hcov c hc hn
        exact hnt (ih (rk t) (hr ▸ hrk c t ht) t (hce c t ht).2 rfl)
    | cons c fr =>
      obtain ⟨r, hr⟩ := hasCycle_some (sccs := sccs) wf c
      obtain ⟨new, e, h1, h2, h3, h4⟩ := enqueue_spec ce (sources ce c) (done ++ c :: fr) fr nd ho
      have hassoc : done ++ c :: fr ++ new = (done ++ [c]) ++ (fr ++ new) := by simp
      have := ih (done ++ [c]) (fr ++ new) (strata ++ [⟨g.members sccs c, r⟩]) (by simp; omega) (hassoc ▸ h1) (by
        intro x hx
        rw [← hassoc] at hx
        rcases List.mem_append.1 hx with hx | hx
        · exact hlt x hx
        · exact (hce _ _ (mem_sources.1 (h3 x hx))).1) (hassoc ▸ h2) (by
        intro x hx hn
        rw [← hassoc] at hn
        obtain ⟨t, ht, hnt⟩ := hcov x hx (fun q => hn (List.mem_append.2 (.inl q)))
        by_cases hall : ∃ t, (x, t) ∈ ce ∧ t ∉ done ++ [c]
        · exact hall
        · exfalso
          have hin : ∀ t, (x, t) ∈ ce → t ∈ done ++ [c] := fun t ht => by by_contra q; exact hall ⟨t, ht, q⟩
          have htc : t = c := by
            rcases List.mem_append.1 (hin t ht) with q | q
            · exact absurd q hnt
            · simpa using q
          subst htc
          rcases h4 x (mem_sources.2 ht) with q | ⟨t', ht', hnt'⟩
          · exact hn q
          · exact hnt' (by
              rcases List.mem_append.1 (hin t' ht') with q | q
              · exact List.mem_append.2 (.inl q)
              · simp at q; subst q; simp)) (List.rel_append hs (.cons ⟨rfl, hr⟩ .nil))
      obtain ⟨order, strata', q1, q2⟩ := this
      refine ⟨order, strata', ?_, q2⟩
      simp only [loop, hr, e]
      rw [hassoc]; exact q1

theorem stratify_spec (wf : g.WellFormed) (h : g.IsScc sccs) (hb : g.badEdge sccs = none) :
    ∃ ce order strata, IsCond g sccs ce ∧ stratify g sccs = some (.ok strata) ∧ order.Nodup ∧ (∀ c, c ∈ order ↔ c < sccs.length) ∧
      Ordered ce order ∧ List.Forall₂ (StratumOf g sccs) order strata := by
  obtain ⟨ce, hce, hmem⟩ := condense_spec h g.edges [] wf.bounds
  have hcond : IsCond g sccs ce := by intro s t; rw [hmem]; simp
  have hlt : ∀ s t, (s, t) ∈ ce → s < sccs.length ∧ t < sccs.length := by
    intro s t hst
    obtain ⟨-, e, -, h1, h2⟩ := (hcond s t).1 hst
    obtain ⟨c1, hc1, -⟩ := sccOf_mem h1
    obtain ⟨c2, hc2, -⟩ := sccOf_mem h2
    exact ⟨(List.getElem?_eq_some_iff.1 hc1).1, (List.getElem?_eq_some_iff.1 hc2).1⟩
  have hsrc : ∀ c, c ∈ (List.range sccs.length).filter (fun c => (targets ce c).isEmpty) ↔ c < sccs.length ∧ ∀ t, (c, t) ∉ ce := by
    intro c
    rw [List.mem_filter, List.mem_range, List.isEmpty_iff, List.eq_nil_iff_forall_not_mem]
    exact and_congr_right fun _ => forall_congr' fun t => not_congr mem_targets
  obtain ⟨order, strata, e, q⟩ := loop_spec (sccs := sccs) wf ce sccs.length hlt (rank g sccs) (fun s t hst => rank_lt h wf hcond hst) sccs.length []
    ((List.range sccs.length).filter (fun c => (targets ce c).isEmpty)) [] (by simp) (by
      simpa using (List.nodup_range).filter _) (by
      intro c hc; exact ((hsrc c).1 (by simpa using hc)).1) (by
      intro i c hi t ht
      exact absurd ht (((hsrc c).1 (List.mem_of_getElem? (by simpa using hi))).2 t)) (by
      intro c hc hn
      by_contra hcon
      exact hn (by
        rw [List.nil_append]
        exact (hsrc c).2 ⟨hc, fun t ht => hcon ⟨t, ht, by simp⟩⟩)) .nil
  refine ⟨ce, order, strata, hcond, ?_, q⟩
  simp only [stratify, hb, hce]
  rw [List.nil_append] at e
  rw [e]; rfl

/-! ### The check -/

theorem badEdge_some (h : g.IsScc sccs) (wf : g.WellFormed) {e : Edge} (hb : g.badEdge sccs = some e) :
    e ∈ g.edges ∧ e.kind ≠ .positive ∧ g.Reaches e.target e.source := by
  unfold Graph.badEdge at hb
  obtain ⟨c, hc, hb⟩ := List.exists_of_findSome?_eq_some hb
  obtain ⟨n, hn, hb⟩ := List.exists_of_findSome?_eq_some hb
  have hmem := List.mem_of_find?_eq_some hb
  have hp := List.find?_some hb
  simp only [Graph.edgesOf, List.mem_reverse, List.mem_filter, beq_iff_eq] at hmem
  obtain ⟨he, rfl⟩ := hmem
  simp only [Bool.and_eq_true, List.contains_eq_mem, decide_eq_true_eq] at hp
  refine ⟨he, ?_, ((h.same c hc _ hn _ (wf.bounds e he).2).1 hp.2).2⟩
  intro hk
  rw [hk] at hp
  simp [EdgeKind.needsStratification] at hp

theorem badEdge_isSome (h : g.IsScc sccs) (wf : g.WellFormed) {e : Edge} (he : e ∈ g.edges) (hk : e.kind ≠ .positive)
    (hr : g.Reaches e.target e.source) : ∃ e', g.badEdge sccs = some e' := by
  obtain ⟨b1, b2⟩ := wf.bounds e he
  obtain ⟨i, hi⟩ := sccOf_total h b1
  have ht := (sccOf_same h b2 hi).2 ⟨Relation.ReflTransGen.single ⟨e, he, rfl, rfl⟩, hr⟩
  obtain ⟨c, hc, hsc⟩ := sccOf_mem hi
  obtain ⟨d, hd, htd⟩ := sccOf_mem ht
  rw [hc] at hd
  obtain rfl := Option.some.inj hd
  cases hb : g.badEdge sccs with
  | some e' => exact ⟨e', rfl⟩
  | none =>
    exfalso
    unfold Graph.badEdge at hb
    rw [List.findSome?_eq_none_iff] at hb
    have h1 := hb c (List.mem_of_getElem? hc)
    rw [List.findSome?_eq_none_iff] at h1
    have h2 := h1 _ hsc
    rw [List.find?_eq_none] at h2
    apply h2 e (by simp [Graph.edgesOf, he])
    have : e.kind.needsStratification = true := by cases hkk : e.kind <;> simp_all [EdgeKind.needsStratification]
    simp [this, htd]

end Strat

end Scallop
