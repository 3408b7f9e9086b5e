import Verif.Proof.SddBuild
import Mathlib.Tactic.Ring

/-! # Evaluating the diagram of a formula -/

namespace Scallop

namespace Sdd

open VTree (Sub)

/-- The diagram contains a set of nodes of the builder that is closed under children. -/
structure Holds (d : Diagram) (b : Builder) (P : Nat → Prop) : Prop where
  node : ∀ n, P n → n < b.nodes.length ∧ d.nodes.lookup n = b.nodes[n]?
  child : ∀ n cs, P n → b.nodes[n]? = some (.or cs) → ∀ c ∈ cs, P c.1 ∧ P c.2

/-- The variables of a vtree, from left to right. -/
def varsOf (t : VTree) : List Nat := t.leaves.map Prod.snd

theorem Inv.children_lt {T b D} (h : Inv T b D) {n : Nat} {cs : List (Nat × Nat)} (hg : b.nodes[n]? = some (.or cs)) :
    2 ≤ n ∧ ∀ c ∈ cs, c.1 < n ∧ c.2 < n := by
  have h2 : 2 ≤ n := by
    by_contra hlt
    have : n = 0 ∨ n = 1 := by omega
    rcases this with rfl | rfl
    · rw [h.n0] at hg; cases hg
    · rw [h.n1] at hg; cases hg
  obtain ⟨s, -, -, -, -, -, -, -, hlt, -⟩ := h.node n _ hg h2
  exact ⟨h2, hlt⟩

theorem evalChildren_spec {rec : Nat → Option Bool} {D : Nat → Bool} : ∀ {cs : List (Nat × Nat)},
    (∀ c ∈ cs, rec c.1 = some (D c.1) ∧ rec c.2 = some (D c.2)) → cs.countP (fun c => D c.1) = 1 →
    Diagram.evalChildren rec cs = some (cs.any (fun c => D c.1 && D c.2))
  | [], _, h => by simp at h
  | c :: cs, hr, h => by
    obtain ⟨h1, h2⟩ := hr c (by simp)
    rw [List.countP_cons] at h
    cases hc : D c.1 with
    | true =>
      have h0 : cs.countP (fun c => D c.1) = 0 := by simp [hc] at h; simpa using h
      simp only [Diagram.evalChildren, h1, hc, h2, List.any_cons, Bool.true_and]
      rw [any_none (fun c : Nat × Nat => D c.1) (fun c => D c.2) h0]; simp
    | false =>
      simp only [hc, Bool.false_eq_true, if_false, Nat.add_zero] at h
      simp only [Diagram.evalChildren, h1, hc, List.any_cons, Bool.false_and, Bool.false_or]
      exact evalChildren_spec (fun c' hc' => hr c' (by simp [hc'])) h

theorem evalNode_spec {T b D} (h : Inv T b D) {d : Diagram} {P : Nat → Prop} (hd : Holds d b P) {assign : Nat → Option Bool} {w : Nat → Bool}
    (ha : ∀ v ∈ varsOf T, assign v = some (w v)) : ∀ (fuel n : Nat), n < fuel → P n → d.evalNode assign fuel n = some (D n w) := by
  intro fuel
  induction fuel with
  | zero => intro n hn; omega
  | succ fuel ih =>
    intro n hn hP
    obtain ⟨hlt, hlook⟩ := hd.node n hP
    have hg : b.nodes[n]? = some b.nodes[n] := List.getElem?_eq_getElem hlt
    rw [hg] at hlook
    by_cases h0 : n = 0
    · subst h0
      rw [h.n0] at hg
      simp only [Diagram.evalNode, hlook, ← Option.some.inj hg, h.d0]
    by_cases h1 : n = 1
    · subst h1
      rw [h.n1] at hg
      simp only [Diagram.evalNode, hlook, ← Option.some.inj hg, h.d1]
    obtain ⟨s, hs, -, hok⟩ := h.node n _ hg (by omega)
    have leafvar : ∀ {i v : Nat}, Sub (.leaf i v) T → v ∈ varsOf T := by
      intro i v hsub
      have : ∀ {t : VTree}, Sub (.leaf i v) t → (i, v) ∈ t.leaves := by
        intro t ht
        generalize e : VTree.leaf i v = x at ht
        induction ht with
        | refl => subst e; simp [VTree.leaves]
        | left _ _ _ ih => simp [VTree.leaves, ih]
        | right _ _ _ ih => simp [VTree.leaves, ih]
      exact List.mem_map.2 ⟨_, this hsub, rfl⟩
    cases hnode : b.nodes[n] with
    | lit x =>
      rw [hnode] at hlook hok
      cases x with
      | pos v =>
        obtain ⟨⟨i, rfl⟩, hd'⟩ := hok
        simp only [Diagram.evalNode, hlook, ha v (leafvar hs), hd']
      | neg v =>
        obtain ⟨⟨i, rfl⟩, hd'⟩ := hok
        simp only [Diagram.evalNode, hlook, ha v (leafvar hs), hd', Option.map_some]
      | tru => exact hok.elim
      | fls => exact hok.elim
    | or cs =>
      rw [hnode] at hlook hok hg
      obtain ⟨i, l, r, rfl, hco, hlts, hden, -⟩ := hok
      simp only [Diagram.evalNode, hlook]
      rw [evalChildren_spec (D := fun k => D k w) (fun c hc => ?_) (hco.one w), hden w]
      obtain ⟨p1, p2⟩ := hd.child n cs hP hg c hc
      obtain ⟨q1, q2⟩ := hlts c hc
      exact ⟨ih _ (by omega) p1, ih _ (by omega) p2⟩

/-! ### Garbage collection -/

theorem lookup_filter {α : Type} (q : Nat → Bool) : ∀ (l : List (Nat × α)) (k : Nat), q k = true →
    (l.filter (fun p => q p.1)).lookup k = l.lookup k
  | [], _, _ => rfl
  | (a, v) :: l, k, h => by
    by_cases e : k = a
    · subst e; simp [h, List.lookup_cons]
    · rw [lookup_cons_ne e]
      cases hq : q a
      · rw [List.filter_cons_of_neg (by simpa using hq)]; exact lookup_filter q l k h
      · rw [List.filter_cons_of_pos (by simpa using hq), lookup_cons_ne e]; exact lookup_filter q l k h

theorem lookup_all (nodes : List Node) (n : Nat) : (nodes.zipIdx.map (fun p => (p.2, p.1))).lookup n = nodes[n]? := by
  have := lookup_idx 0 (fun p : Node × Nat => p.1) nodes 0 n
  simpa using this

theorem mapM_flatten {f : (Nat × Nat) → Option (List Nat)} {Q : Nat × Nat → List Nat → Prop} : ∀ {cs : List (Nat × Nat)},
    (∀ c ∈ cs, ∃ a, f c = some a ∧ Q c a) → ∃ ls, cs.mapM f = some ls ∧ (∀ c ∈ cs, ∃ a ∈ ls, Q c a) ∧ (∀ a ∈ ls, ∃ c ∈ cs, f c = some a ∧ Q c a)
  | [], _ => ⟨[], rfl, by simp, by simp⟩
  | c :: cs, h => by
    obtain ⟨a, ha, hq⟩ := h c (by simp)
    obtain ⟨ls, h1, h2, h3⟩ := mapM_flatten (f := f) (Q := Q) (cs := cs) (fun c' hc' => h c' (by simp [hc']))
    refine ⟨a :: ls, by simp [List.mapM_cons, ha, h1], ?_, ?_⟩
    · intro c' hc'
      rcases List.mem_cons.1 hc' with rfl | hc'
      · exact ⟨a, by simp, hq⟩
      · obtain ⟨a', ha', hq'⟩ := h2 c' hc'
        exact ⟨a', by simp [ha'], hq'⟩
    · intro a' ha'
      rcases List.mem_cons.1 ha' with rfl | ha'
      · exact ⟨c, by simp, ha, hq⟩
      · obtain ⟨c', hc', hq'⟩ := h3 a' ha'
        exact ⟨c', by simp [hc'], hq'⟩

/-- A set of visited nodes that is closed under children. -/
structure Visited (b : Builder) (n : Nat) (vis : List Nat) : Prop where
  root : n ∈ vis
  lt : ∀ m ∈ vis, m < b.nodes.length
  child : ∀ m ∈ vis, ∀ cs, b.nodes[m]? = some (.or cs) → ∀ c ∈ cs, c.1 ∈ vis ∧ c.2 ∈ vis

theorem markVisited_spec {T b D} (h : Inv T b D) : ∀ (fuel n : Nat), n < fuel → n < b.nodes.length →
    ∃ vis, Builder.markVisited b.nodes fuel n = some vis ∧ Visited b n vis := by
  intro fuel
  induction fuel with
  | zero => intro n hn; omega
  | succ fuel ih =>
    intro n hn hlt
    have hg : b.nodes[n]? = some b.nodes[n] := List.getElem?_eq_getElem hlt
    cases hnode : b.nodes[n] with
    | lit x =>
      rw [hnode] at hg
      refine ⟨[n], by simp only [Builder.markVisited, hg], by simp, by simpa using hlt, ?_⟩
      intro m hm cs hcs
      simp at hm; subst hm
      rw [hg] at hcs; cases hcs
    | or cs =>
      rw [hnode] at hg
      obtain ⟨-, hc⟩ := h.children_lt hg
      obtain ⟨ls, hm, h1, h2⟩ := mapM_flatten
        (f := fun c => Builder.bothVisits (Builder.markVisited b.nodes fuel c.1) (Builder.markVisited b.nodes fuel c.2))
        (Q := fun c a => ∃ a1 a2, a = a1 ++ a2 ∧ Visited b c.1 a1 ∧ Visited b c.2 a2) (cs := cs) (fun c hcm => by
          obtain ⟨q1, q2⟩ := hc c hcm
          obtain ⟨a1, e1, v1⟩ := ih c.1 (by omega) (by omega)
          obtain ⟨a2, e2, v2⟩ := ih c.2 (by omega) (by omega)
          exact ⟨a1 ++ a2, by simp only [e1, e2, Builder.bothVisits], a1, a2, rfl, v1, v2⟩)
      refine ⟨n :: ls.flatten, ?_, by simp, ?_, ?_⟩
      · simp only [Builder.markVisited, hg]
        rw [hm]
      · intro m hmem
        rcases List.mem_cons.1 hmem with rfl | hmem
        · exact hlt
        · obtain ⟨a, ha, hma⟩ := List.mem_flatten.1 hmem
          obtain ⟨c, -, -, a1, a2, rfl, v1, v2⟩ := h2 a ha
          rcases List.mem_append.1 hma with hma | hma
          · exact v1.lt m hma
          · exact v2.lt m hma
      · intro m hmem cs' hcs' c hcm
        rcases List.mem_cons.1 hmem with rfl | hmem
        · rw [hg] at hcs'
          cases Option.some.inj hcs'
          obtain ⟨a, ha, a1, a2, rfl, v1, v2⟩ := h1 c hcm
          exact ⟨List.mem_cons_of_mem _ (List.mem_flatten.2 ⟨_, ha, List.mem_append.2 (.inl v1.root)⟩),
            List.mem_cons_of_mem _ (List.mem_flatten.2 ⟨_, ha, List.mem_append.2 (.inr v2.root)⟩)⟩
        · obtain ⟨a, ha, hma⟩ := List.mem_flatten.1 hmem
          obtain ⟨c', -, -, a1, a2, rfl, v1, v2⟩ := h2 a ha
          rcases List.mem_append.1 hma with hma | hma
          · obtain ⟨g1, g2⟩ := v1.child m hma cs' hcs' c hcm
            exact ⟨List.mem_cons_of_mem _ (List.mem_flatten.2 ⟨_, ha, List.mem_append.2 (.inl g1)⟩),
              List.mem_cons_of_mem _ (List.mem_flatten.2 ⟨_, ha, List.mem_append.2 (.inl g2)⟩)⟩
          · obtain ⟨g1, g2⟩ := v2.child m hma cs' hcs' c hcm
            exact ⟨List.mem_cons_of_mem _ (List.mem_flatten.2 ⟨_, ha, List.mem_append.2 (.inr g1)⟩),
              List.mem_cons_of_mem _ (List.mem_flatten.2 ⟨_, ha, List.mem_append.2 (.inr g2)⟩)⟩

/-- The built diagram, with or without garbage collection. -/
theorem build_holds {T b D} (h : Inv T b D) {vars : List Nat} (hp : ∀ v ∈ vars, ∃ n, b.posVars.lookup v = some n)
    (hn : ∀ v ∈ vars, ∃ n, b.negVars.lookup v = some n) {f : BoolForm} (ho : f.Over vars) (gc : Bool) :
    ∃ d root b' D' P, b.build f gc = some d ∧ d.roots = [root] ∧ Inv T b' D' ∧ Holds d b' P ∧ P root ∧ ∀ w, D' root w = f.eval w := by
  obtain ⟨root, b', D', e, h', -, hlt, hd⟩ := buildSdd_spec f b D h hp hn ho
  cases gc with
  | false =>
    refine ⟨⟨b'.nodes.zipIdx.map (fun p => (p.2, p.1)), [root]⟩, root, b', D', fun n => n < b'.nodes.length, ?_, rfl, h', ⟨?_, ?_⟩, hlt, hd⟩
    · simp [Builder.build, e]
    · intro n hn; exact ⟨hn, lookup_all _ _⟩
    · intro n cs hn hg c hc
      obtain ⟨-, hh⟩ := h'.children_lt hg
      obtain ⟨q1, q2⟩ := hh c hc
      exact ⟨by omega, by omega⟩
  | true =>
    obtain ⟨vis, hv, hvis⟩ := markVisited_spec h' (b'.nodes.length + 1) root (by omega) hlt
    refine ⟨⟨(b'.nodes.zipIdx.map (fun p => (p.2, p.1))).filter (fun p => decide (p.1 ∈ vis)), [root]⟩, root, b', D', fun n => n ∈ vis, ?_,
      rfl, h', ⟨?_, ?_⟩, hvis.root, hd⟩
    · simp [Builder.build, e, Builder.garbageCollect, hv]
    · intro n hn
      refine ⟨hvis.lt n hn, ?_⟩
      show List.lookup n (List.filter (fun p => decide (p.1 ∈ vis)) _) = _
      rw [lookup_filter (fun m => decide (m ∈ vis)) _ n (by simpa using hn)]
      exact lookup_all _ _
    · intro n cs hn hg c hc; exact hvis.child n hn cs hg c hc

/-! ### Without variables -/

theorem const_build {f : BoolForm} (ho : f.Over []) : ∀ w, ∃ b, withConfig none [] = some b ∧
    b.buildSdd f = some (if f.eval w then 1 else 0, b) ∧ b.nodes = [.lit .fls, .lit .tru] ∧ b.falseNode = 0 ∧ b.trueNode = 1 ∧
    b.negMap = [(0, 1), (1, 0)] := by
  intro w
  refine ⟨_, rfl, ?_, rfl, rfl, rfl, rfl⟩
  induction f with
  | fls => simp [Builder.buildSdd, BoolForm.eval]
  | tru => simp [Builder.buildSdd, BoolForm.eval]
  | pos v => simp [BoolForm.Over] at ho
  | neg v => simp [BoolForm.Over] at ho
  | not f ih =>
    simp only [Builder.buildSdd, ih ho]
    cases hf : f.eval w <;> simp [BoolForm.eval, hf] <;> rfl
  | and l r ihl ihr =>
    simp only [Builder.buildSdd, ihl ho.1, ihr ho.2]
    cases hl : l.eval w <;> cases hr : r.eval w <;> simp [BoolForm.eval, hl, hr] <;> rfl
  | or l r ihl ihr =>
    simp only [Builder.buildSdd, ihl ho.1, ihr ho.2]
    cases hl : l.eval w <;> cases hr : r.eval w <;> simp [BoolForm.eval, hl, hr] <;> rfl

end Sdd

end Scallop
