import Verif.Proof.Sdd
import Verif.Spec.Sdd
import Verif.Model.Wmc

/-! # The initial builder, building a formula, evaluating a diagram -/

namespace Scallop

namespace Sdd

open VTree (Sub)

theorem lookup_idx {α β : Type} (k : Nat) (g : α × Nat → β) : ∀ (vs : List α) (s n : Nat),
    ((vs.zipIdx s).map (fun p => (p.2 + k, g p))).lookup n = if s + k ≤ n then (vs[n - k - s]?).map (fun v => g (v, n - k)) else none
  | [], s, n => by simp
  | v :: vs, s, n => by
    rw [List.zipIdx_cons, List.map_cons, List.lookup_cons, lookup_idx k g vs (s + 1) n]
    by_cases e : n = s + k
    · subst e; simp
    · have : (n == s + k) = false := beq_false_of_ne e
      simp only [this]
      by_cases h : s + k ≤ n
      · have h1 : s + 1 + k ≤ n := by omega
        have h2 : n - k - s = (n - k - (s + 1)) + 1 := by omega
        simp [h, h1, h2]
      · have h1 : ¬ s + 1 + k ≤ n := by omega
        simp [h, h1]

theorem lookup_var (k : Nat) : ∀ (vs : List Nat) (s v : Nat), v ∈ vs →
    ∃ j, ((vs.zipIdx s).map (fun p => (p.1, p.2 + k))).lookup v = some (s + j + k) ∧ vs[j]? = some v
  | [], _, _, h => by simp at h
  | a :: vs, s, v, h => by
    rw [List.zipIdx_cons, List.map_cons, List.lookup_cons]
    by_cases e : v = a
    · subst e; exact ⟨0, by simp, by simp⟩
    · have : (v == a) = false := beq_false_of_ne e
      obtain ⟨j, h1, h2⟩ := lookup_var k vs (s + 1) v (by simpa [e] using h)
      refine ⟨j + 1, ?_, by simpa using h2⟩
      simp only [this, h1]
      congr 1; omega

theorem lookup_var_mem (k : Nat) : ∀ (vs : List Nat) (s v n : Nat),
    ((vs.zipIdx s).map (fun p => (p.1, p.2 + k))).lookup v = some n → v ∈ vs
  | [], _, _, _, h => by simp at h
  | a :: vs, s, v, n, h => by
    rw [List.zipIdx_cons, List.map_cons, List.lookup_cons] at h
    by_cases e : v = a
    · simp [e]
    · have : (v == a) = false := beq_false_of_ne e
      simp only [this] at h
      simp [lookup_var_mem k vs (s + 1) v n h]

theorem leaves_sub : ∀ {t : VTree} {i v : Nat}, (i, v) ∈ t.leaves → Sub (.leaf i v) t
  | .leaf j u, i, v, h => by
    simp only [VTree.leaves, List.mem_singleton, Prod.mk.injEq] at h
    rw [h.1, h.2]; exact .refl _
  | .branch j l r, i, v, h => by
    simp only [VTree.leaves, List.mem_append] at h
    rcases h with h | h
    · exact .left _ _ (leaves_sub h)
    · exact .right _ _ (leaves_sub h)

theorem varNode_spec {t : VTree} {v : Nat} (h : v ∈ t.leaves.map Prod.snd) : ∃ i, t.varNode v = some i ∧ Sub (.leaf i v) t := by
  obtain ⟨⟨i, v'⟩, h1, rfl⟩ := List.mem_map.1 h
  cases hf : t.leaves.reverse.find? (fun p => p.2 == v') with
  | none =>
    rw [List.find?_eq_none] at hf
    exact absurd (by simp) (hf (i, v') (by simpa using h1))
  | some p =>
    have h2 := List.find?_some hf
    have h3 := List.mem_of_find?_eq_some hf
    refine ⟨p.1, by simp [VTree.varNode, hf], leaves_sub ?_⟩
    simp at h2 h3
    obtain ⟨a, b⟩ := p
    simp only at h2
    subst h2
    exact h3

theorem mapM_some {α β : Type} {f : α → Option β} : ∀ {l : List α}, (∀ x ∈ l, ∃ y, f x = some y) →
    ∃ ys, l.mapM f = some ys ∧ ys.length = l.length ∧ ∀ (j : Nat) x, l[j]? = some x → ∃ y, ys[j]? = some y ∧ f x = some y
  | [], _ => ⟨[], rfl, rfl, by simp⟩
  | a :: l, h => by
    obtain ⟨y, hy⟩ := h a (by simp)
    obtain ⟨ys, h1, h2, h3⟩ := mapM_some (f := f) (l := l) (fun x hx => h x (by simp [hx]))
    refine ⟨y :: ys, by simp [List.mapM_cons, hy, h1], by simp [h2], ?_⟩
    intro j x hj
    cases j with
    | zero => simp at hj; subst hj; exact ⟨y, by simp, hy⟩
    | succ j => simpa using h3 j x (by simpa using hj)

/-- The value of a literal. -/
def litVal (w : Nat → Bool) : Lit → Bool
  | .pos v => w v
  | .neg v => !w v
  | .tru => true
  | .fls => false

theorem init_spec {vars : List Nat} {T : VTree} (hl : T.leaves.map Prod.snd = vars) (u : T.Uniq) (nd : vars.Nodup) :
    ∃ b D, withConfig (some T) vars = some b ∧ Inv T b D ∧ (∀ v ∈ vars, ∃ n, b.posVars.lookup v = some n) ∧
      (∀ v ∈ vars, ∃ n, b.negVars.lookup v = some n) := by
  obtain ⟨vs, hvs, hlen, hget⟩ := mapM_some (f := fun v => (some T).bind (fun t => t.varNode v)) (l := vars)
    (fun v hv => by
      obtain ⟨i, h, -⟩ := varNode_spec (t := T) (v := v) (by rw [hl]; exact hv)
      exact ⟨i, h⟩)
  have hvsub : ∀ (j v : Nat), vars[j]? = some v → ∃ i, vs[j]? = some i ∧ Sub (.leaf i v) T := by
    intro j v hj
    obtain ⟨i, h1, h2⟩ := hget j v hj
    obtain ⟨i', h3, h4⟩ := varNode_spec (t := T) (v := v) (by rw [hl]; exact List.mem_of_getElem? hj)
    have : i = i' := Option.some.inj (h2.symm.trans h3)
    subst this
    exact ⟨i, h1, h4⟩
  let N := vars.length
  let nodes : List Node := [.lit .fls, .lit .tru] ++ vars.map (fun v => .lit (.pos v)) ++ vars.map (fun v => .lit (.neg v))
  let D : Den := fun id w => match nodes[id]? with
    | some (.lit l) => litVal w l
    | _ => false
  let b : Builder := {
      vtree := some T
      nodes := nodes
      falseNode := 0
      trueNode := 1
      posVars := vars.zipIdx.map (fun p => (p.1, p.2 + 2))
      negVars := vars.zipIdx.map (fun p => (p.1, p.2 + 2 + N))
      negMap := vars.zipIdx.map (fun p => (p.2 + 2, p.2 + 2 + N)) ++ vars.zipIdx.map (fun p => (p.2 + 2 + N, p.2 + 2)) ++ [(0, 1), (1, 0)]
      vmap := vs.zipIdx.map (fun p => (p.2 + 2, p.1)) ++ vs.zipIdx.map (fun p => (p.2 + 2 + N, p.1))
      cache := [] }
  have hb : withConfig (some T) vars = some b := by
    simp only [withConfig, hvs]; rfl
  have hnl : nodes.length = 2 + 2 * N := by simp [nodes, N]; omega
  have hpos : ∀ (j v : Nat), vars[j]? = some v → nodes[j + 2]? = some (.lit (.pos v)) := by
    intro j v hj
    have hlt := (List.getElem?_eq_some_iff.1 hj).1
    simp only [nodes]
    rw [List.getElem?_append_left (by simp; omega), List.getElem?_append_right (by simp)]
    simp [hj]
  have hneg : ∀ (j v : Nat), vars[j]? = some v → nodes[j + 2 + N]? = some (.lit (.neg v)) := by
    intro j v hj
    simp only [nodes]
    rw [List.getElem?_append_right (by simp [N]; omega)]
    simp only [List.length_append, List.length_map, List.length_cons, List.length_nil, N]
    rw [show j + 2 + vars.length - (0 + 1 + 1 + vars.length) = j by omega]
    simp [hj]
  have hcases : ∀ (id : Nat) (node : Node), nodes[id]? = some node → (id = 0 ∧ node = .lit .fls) ∨ (id = 1 ∧ node = .lit .tru) ∨
      (∃ j v, id = j + 2 ∧ vars[j]? = some v ∧ node = .lit (.pos v)) ∨ (∃ j v, id = j + 2 + N ∧ vars[j]? = some v ∧ node = .lit (.neg v)) := by
    intro id node hg
    have hlt := (List.getElem?_eq_some_iff.1 hg).1
    rw [hnl] at hlt
    by_cases h0 : id = 0
    · subst h0; exact .inl ⟨rfl, by simpa [nodes] using hg.symm⟩
    by_cases h1 : id = 1
    · subst h1; exact .inr (.inl ⟨rfl, by simpa [nodes] using hg.symm⟩)
    by_cases h2 : id < 2 + N
    · have hj : id - 2 < vars.length := by show id - 2 < N; omega
      have := hpos (id - 2) vars[id - 2] (List.getElem?_eq_getElem hj)
      rw [show id - 2 + 2 = id by omega, hg] at this
      exact .inr (.inr (.inl ⟨id - 2, _, by omega, List.getElem?_eq_getElem hj, Option.some.inj this⟩))
    · have hj : id - 2 - N < vars.length := by show id - 2 - N < N; omega
      have := hneg (id - 2 - N) vars[id - 2 - N] (List.getElem?_eq_getElem hj)
      rw [show id - 2 - N + 2 + N = id by omega, hg] at this
      exact .inr (.inr (.inr ⟨id - 2 - N, _, by omega, List.getElem?_eq_getElem hj, Option.some.inj this⟩))
  -- the maps
  have hA : ∀ n, (vars.zipIdx.map (fun p => (p.2 + 2, p.2 + 2 + N))).lookup n = if 2 ≤ n then (vars[n - 2]?).map (fun _ => n - 2 + 2 + N) else none := by
    intro n
    have := lookup_idx 2 (fun p : Nat × Nat => p.2 + 2 + N) vars 0 n
    simpa using this
  have hB : ∀ n, (vars.zipIdx.map (fun p => (p.2 + 2 + N, p.2 + 2))).lookup n =
      if 2 + N ≤ n then (vars[n - (2 + N)]?).map (fun _ => n - (2 + N) + 2) else none := by
    intro n
    have := lookup_idx (2 + N) (fun p : Nat × Nat => p.2 + 2) vars 0 n
    simpa [Nat.add_assoc] using this
  have hVA : ∀ n, (vs.zipIdx.map (fun p => (p.2 + 2, p.1))).lookup n = if 2 ≤ n then vs[n - 2]? else none := by
    intro n
    have := lookup_idx 2 (fun p : Nat × Nat => p.1) vs 0 n
    simpa using this
  have hVB : ∀ n, (vs.zipIdx.map (fun p => (p.2 + 2 + N, p.1))).lookup n = if 2 + N ≤ n then vs[n - (2 + N)]? else none := by
    intro n
    have := lookup_idx (2 + N) (fun p : Nat × Nat => p.1) vs 0 n
    simpa [Nat.add_assoc] using this
  have hnm : ∀ n, b.negMap.lookup n = if n = 0 then some 1 else if n = 1 then some 0 else if n < 2 + N then some (n + N) else
      if n < 2 + 2 * N then some (n - N) else none := by
    intro n
    simp only [b]
    rw [List.lookup_append, List.lookup_append, hA, hB]
    by_cases h0 : n = 0
    · subst h0; simp [List.lookup_cons]
    by_cases h1 : n = 1
    · subst h1
      have h2 : ¬ 2 + N ≤ 1 := by omega
      simp [List.lookup_cons, h2]
    have h2 : 2 ≤ n := by omega
    rw [if_pos h2, if_neg h0, if_neg h1]
    have hl01 : [(0, 1), (1, 0)].lookup n = none := by
      rw [lookup_cons_ne h0, lookup_cons_ne h1]; rfl
    by_cases h3 : n < 2 + N
    · have hj : n - 2 < vars.length := by show n - 2 < N; omega
      rw [if_pos h3, List.getElem?_eq_getElem hj]
      simp; omega
    · rw [if_neg h3, List.getElem?_eq_none (by show N ≤ n - 2; omega), if_pos (by omega)]
      by_cases h4 : n < 2 + 2 * N
      · have hj : n - (2 + N) < vars.length := by show n - (2 + N) < N; omega
        rw [if_pos h4, List.getElem?_eq_getElem hj]
        simp; omega
      · rw [if_neg h4, List.getElem?_eq_none (by show N ≤ n - (2 + N); omega)]
        simp [hl01]
  have hvm : ∀ n, b.vmap.lookup n = if n < 2 then none else if n < 2 + N then vs[n - 2]? else vs[n - 2 - N]? := by
    intro n
    simp only [b]
    rw [List.lookup_append, hVA, hVB]
    by_cases h2 : n < 2
    · have h3 : ¬ 2 ≤ n := by omega
      have h4 : ¬ 2 + N ≤ n := by omega
      simp [h2, h3, h4]
    · rw [if_pos (by omega), if_neg h2]
      by_cases h3 : n < 2 + N
      · have hj : n - 2 < vs.length := by rw [hlen]; show n - 2 < N; omega
        rw [if_pos h3, List.getElem?_eq_getElem hj]; simp
      · rw [if_neg h3, if_pos (by omega), List.getElem?_eq_none (by rw [hlen]; show N ≤ n - 2; omega)]
        rw [show n - (2 + N) = n - 2 - N by omega]; simp
  have hDv : ∀ id l w, nodes[id]? = some (.lit l) → D id w = litVal w l := by
    intro id l w h
    simp only [D, h]
  have hdom : ∀ j v, vars[j]? = some v → j < N := fun j v h => (List.getElem?_eq_some_iff.1 h).1
  have nodup : ∀ (i j v : Nat), vars[i]? = some v → vars[j]? = some v → i = j := by
    intro i j v hi hj
    obtain ⟨hi1, hi2⟩ := List.getElem?_eq_some_iff.1 hi
    obtain ⟨hj1, hj2⟩ := List.getElem?_eq_some_iff.1 hj
    exact (List.Nodup.getElem_inj_iff nd).1 (hi2.trans hj2.symm)
  refine ⟨b, D, hb, ?_, ?_, ?_⟩
  · refine {
      tree := rfl
      uniq := u
      fls := rfl
      tru := rfl
      n0 := by simp [b, nodes]
      n1 := by simp [b, nodes]
      d0 := fun w => hDv 0 .fls w (by simp [nodes])
      d1 := fun w => hDv 1 .tru w (by simp [nodes])
      node := ?_
      vdom := ?_
      neg := ?_
      neg0 := by rw [hnm]; simp
      litNeg := ?_
      litNeg' := ?_
      litUniq := ?_
      pos := ?_
      negv := ?_
      cached := fun _ _ _ _ h => by simp [b] at h }
    · intro id node hg h2
      rcases hcases id node hg with ⟨rfl, -⟩ | ⟨rfl, -⟩ | ⟨j, v, rfl, hj, rfl⟩ | ⟨j, v, rfl, hj, rfl⟩
      · omega
      · omega
      · obtain ⟨i, hi, hs⟩ := hvsub j v hj
        have := hdom j v hj
        refine ⟨_, hs, ?_, ⟨i, rfl⟩, fun w => hDv _ _ w hg⟩
        rw [hvm, if_neg (by omega), if_pos (by omega)]; simpa [VTree.id] using hi
      · obtain ⟨i, hi, hs⟩ := hvsub j v hj
        have := hdom j v hj
        refine ⟨_, hs, ?_, ⟨i, rfl⟩, fun w => hDv _ _ w hg⟩
        rw [hvm, if_neg (by omega), if_neg (by omega), show j + 2 + N - 2 - N = j by omega]; simpa [VTree.id] using hi
    · intro id v hv
      rw [hvm] at hv
      show 2 ≤ id ∧ id < nodes.length
      rw [hnl]
      split at hv
      · cases hv
      · split at hv
        · omega
        · have := (List.getElem?_eq_some_iff.1 hv).1
          rw [hlen] at this
          have : id - 2 - N < N := this
          omega
    · intro n m hm
      show n < nodes.length ∧ _
      rw [hnl]
      have hm' := hm
      rw [hnm] at hm
      by_cases h0 : n = 0
      · subst h0
        rw [if_pos rfl] at hm
        obtain rfl := Option.some.inj hm
        refine ⟨by omega, by rw [hnm]; simp, fun w => ?_, by rw [hvm, hvm]; simp⟩
        rw [hDv 0 .fls w (by simp [nodes]), hDv 1 .tru w (by simp [nodes])]; rfl
      rw [if_neg h0] at hm
      by_cases h1 : n = 1
      · subst h1
        rw [if_pos rfl] at hm
        obtain rfl := Option.some.inj hm
        refine ⟨by omega, by rw [hnm]; simp, fun w => ?_, by rw [hvm, hvm]; simp⟩
        rw [hDv 0 .fls w (by simp [nodes]), hDv 1 .tru w (by simp [nodes])]; rfl
      rw [if_neg h1] at hm
      by_cases h2 : n < 2 + N
      · rw [if_pos h2] at hm
        obtain rfl := Option.some.inj hm
        have hj : n - 2 < vars.length := by show n - 2 < N; omega
        have hg := hpos (n - 2) _ (List.getElem?_eq_getElem hj)
        have hg' := hneg (n - 2) _ (List.getElem?_eq_getElem hj)
        rw [show n - 2 + 2 = n by omega] at hg
        rw [show n - 2 + 2 + N = n + N by omega] at hg'
        refine ⟨by omega, ?_, fun w => ?_, ?_⟩
        · rw [hnm, if_neg (by omega), if_neg (by omega), if_neg (by omega), if_pos (by omega)]; congr 1; omega
        · rw [hDv _ _ w hg, hDv _ _ w hg']; rfl
        · rw [hvm, hvm, if_neg (by omega), if_neg (by omega), if_neg (by omega), if_pos h2, show n + N - 2 - N = n - 2 by omega]
      rw [if_neg h2] at hm
      by_cases h3 : n < 2 + 2 * N
      · rw [if_pos h3] at hm
        obtain rfl := Option.some.inj hm
        have hj : n - 2 - N < vars.length := by show n - 2 - N < N; omega
        have hg := hpos (n - 2 - N) _ (List.getElem?_eq_getElem hj)
        have hg' := hneg (n - 2 - N) _ (List.getElem?_eq_getElem hj)
        rw [show n - 2 - N + 2 = n - N by omega] at hg
        rw [show n - 2 - N + 2 + N = n by omega] at hg'
        refine ⟨by omega, ?_, fun w => ?_, ?_⟩
        · rw [hnm, if_neg (by omega), if_neg (by omega), if_pos (by omega)]; congr 1; omega
        · rw [hDv _ _ w hg, hDv _ _ w hg']; simp [litVal]
        · rw [hvm, hvm, if_neg (by omega), if_pos (by omega), if_neg (by omega), if_neg h2, show n - N - 2 = n - 2 - N by omega]
      · rw [if_neg h3] at hm; cases hm
    · intro id v hg
      rcases hcases id _ hg with ⟨rfl, h⟩ | ⟨rfl, h⟩ | ⟨j, v', rfl, hj, h⟩ | ⟨j, v', rfl, hj, h⟩
      · cases h
      · cases h
      · cases h
        have := hdom j v hj
        refine ⟨j + 2 + N, hneg j v hj, ?_⟩
        rw [hnm, if_neg (by omega), if_neg (by omega), if_pos (by omega)]
      · cases h
    · intro id v hg
      rcases hcases id _ hg with ⟨rfl, h⟩ | ⟨rfl, h⟩ | ⟨j, v', rfl, hj, h⟩ | ⟨j, v', rfl, hj, h⟩
      · cases h
      · cases h
      · cases h
      · cases h
        have := hdom j v hj
        refine ⟨j + 2, hpos j v hj, ?_⟩
        rw [hnm, if_neg (by omega), if_neg (by omega), if_neg (by omega), if_pos (by omega)]; congr 1; omega
    · intro i j l hi hj
      rcases hcases i _ hi with ⟨rfl, h⟩ | ⟨rfl, h⟩ | ⟨a, v, rfl, ha, h⟩ | ⟨a, v, rfl, ha, h⟩ <;>
      rcases hcases j _ hj with ⟨rfl, h'⟩ | ⟨rfl, h'⟩ | ⟨a', v', rfl, ha', h'⟩ | ⟨a', v', rfl, ha', h'⟩ <;>
      rw [h] at h' <;> cases h' <;> first | rfl | (rw [nodup _ _ _ ha ha'])
    · intro v n hv
      obtain ⟨j, h1, h2⟩ := lookup_var 2 vars 0 v (lookup_var_mem 2 vars 0 v n hv)
      have : n = 0 + j + 2 := Option.some.inj (hv.symm.trans h1)
      subst this
      show nodes[0 + j + 2]? = _
      rw [Nat.zero_add]
      exact hpos j v h2
    · intro v n hv
      have hv' : (vars.zipIdx.map (fun p => (p.1, p.2 + (2 + N)))).lookup v = some n := by
        simpa [b, Nat.add_assoc] using hv
      obtain ⟨j, h1, h2⟩ := lookup_var (2 + N) vars 0 v (lookup_var_mem (2 + N) vars 0 v n hv')
      have : n = 0 + j + (2 + N) := Option.some.inj (hv'.symm.trans h1)
      subst this
      show nodes[0 + j + (2 + N)]? = _
      rw [Nat.zero_add, ← Nat.add_assoc]
      exact hneg j v h2
  · intro v hv
    obtain ⟨j, h1, -⟩ := lookup_var 2 vars 0 v hv
    exact ⟨_, h1⟩
  · intro v hv
    obtain ⟨j, h1, -⟩ := lookup_var (2 + N) vars 0 v hv
    exact ⟨_, by simpa [b, Nat.add_assoc] using h1⟩

/-! ### Building -/

theorem applyFuel_eq {T b D} (h : Inv T b D) : Builder.applyFuel b = T.inOrder.length + 1 := by
  simp [Builder.applyFuel, h.tree]

theorem Inv.within_root {T b D} (h : Inv T b D) {n : Nat} (hn : n < b.nodes.length) : Within b T n := by
  by_cases h0 : n = 0
  · exact .inl h0
  by_cases h1 : n = 1
  · exact .inr (.inl h1)
  obtain ⟨s, hs, hv, -⟩ := h.node n _ (List.getElem?_eq_getElem hn) (by omega)
  exact .inr (.inr ⟨s, hs, hv⟩)

theorem buildSdd_spec {T : VTree} {vars : List Nat} : ∀ (f : BoolForm) (b : Builder) (D : Den), Inv T b D →
    (∀ v ∈ vars, ∃ n, b.posVars.lookup v = some n) → (∀ v ∈ vars, ∃ n, b.negVars.lookup v = some n) → f.Over vars →
    ∃ n b' D', b.buildSdd f = some (n, b') ∧ Inv T b' D' ∧ Ext b D b' D' ∧ n < b'.nodes.length ∧ ∀ w, D' n w = f.eval w := by
  intro f
  induction f with
  | fls =>
    intro b D h _ _ _
    exact ⟨0, b, D, by simp [Builder.buildSdd, h.fls], h, Ext.refl _ _, by have := h.len; omega, fun w => h.d0 w⟩
  | tru =>
    intro b D h _ _ _
    exact ⟨1, b, D, by simp [Builder.buildSdd, h.tru], h, Ext.refl _ _, by have := h.len; omega, fun w => h.d1 w⟩
  | pos v =>
    intro b D h hp _ ho
    obtain ⟨n, hn⟩ := hp v ho
    have hg := h.pos v n hn
    have h2 : 2 ≤ n := by
      by_contra hlt
      have : n = 0 ∨ n = 1 := by omega
      rcases this with rfl | rfl
      · rw [h.n0] at hg; cases hg
      · rw [h.n1] at hg; cases hg
    obtain ⟨s, -, -, -, hd⟩ := h.node n _ hg h2
    exact ⟨n, b, D, by simp [Builder.buildSdd, hn], h, Ext.refl _ _, get_lt hg, hd⟩
  | neg v =>
    intro b D h _ hp ho
    obtain ⟨n, hn⟩ := hp v ho
    have hg := h.negv v n hn
    have h2 : 2 ≤ n := by
      by_contra hlt
      have : n = 0 ∨ n = 1 := by omega
      rcases this with rfl | rfl
      · rw [h.n0] at hg; cases hg
      · rw [h.n1] at hg; cases hg
    obtain ⟨s, -, -, -, hd⟩ := h.node n _ hg h2
    exact ⟨n, b, D, by simp [Builder.buildSdd, hn], h, Ext.refl _ _, get_lt hg, hd⟩
  | not f ih =>
    intro b D h hp hn ho
    obtain ⟨n, b1, D1, e1, h1, x1, hl, hd⟩ := ih b D h hp hn ho
    obtain ⟨m, b2, D2, e2, h2, x2, hm, -, -⟩ := negateNode_spec (Builder.negateFuel b1) b1 D1 n h1
      (by unfold Builder.negateFuel; omega) hl
    obtain ⟨-, hm', hdn, -⟩ := h2.neg _ _ hm
    refine ⟨m, b2, D2, by simp only [Builder.buildSdd, e1, e2], h2, x1.trans x2, (h2.neg _ _ hm').1, fun w => ?_⟩
    rw [hdn w, x2.den n hl, hd w]; rfl
  | and l r ihl ihr =>
    intro b D h hp hn ho
    obtain ⟨n1, b1, D1, e1, h1, x1, hl1, hd1⟩ := ihl b D h hp hn ho.1
    obtain ⟨n2, b2, D2, e2, h2, x2, hl2, hd2⟩ := ihr b1 D1 h1 (by rw [x1.posVars]; exact hp) (by rw [x1.negVars]; exact hn) ho.2
    have hl1' := Nat.lt_of_lt_of_le hl1 x2.length
    obtain ⟨n, b3, D3, e3, h3, x3, w3, d3⟩ := apply_spec T.inOrder.length T (.refl T) (Nat.le_refl _) b2 D2 h2 n1 n2 .conjoin
      (h2.within_root hl1') (h2.within_root hl2)
    refine ⟨n, b3, D3, ?_, h3, (x1.trans x2).trans x3, h3.within_lt w3, fun w => ?_⟩
    · simp only [Builder.buildSdd, e1, e2, applyFuel_eq h2, e3]
    · rw [d3 w, x2.den _ hl1, hd1 w, hd2 w]; rfl
  | or l r ihl ihr =>
    intro b D h hp hn ho
    obtain ⟨n1, b1, D1, e1, h1, x1, hl1, hd1⟩ := ihl b D h hp hn ho.1
    obtain ⟨n2, b2, D2, e2, h2, x2, hl2, hd2⟩ := ihr b1 D1 h1 (by rw [x1.posVars]; exact hp) (by rw [x1.negVars]; exact hn) ho.2
    have hl1' := Nat.lt_of_lt_of_le hl1 x2.length
    obtain ⟨n, b3, D3, e3, h3, x3, w3, d3⟩ := apply_spec T.inOrder.length T (.refl T) (Nat.le_refl _) b2 D2 h2 n1 n2 .disjoin
      (h2.within_root hl1') (h2.within_root hl2)
    refine ⟨n, b3, D3, ?_, h3, (x1.trans x2).trans x3, h3.within_lt w3, fun w => ?_⟩
    · simp only [Builder.buildSdd, e1, e2, applyFuel_eq h2, e3]
    · rw [d3 w, x2.den _ hl1, hd1 w, hd2 w]; rfl

end Sdd

end Scallop
