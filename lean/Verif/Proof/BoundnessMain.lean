import Verif.Proof.BoundnessSound

/-!
# Boundness analysis: what is marked takes few values
-/

namespace Scallop.Front

variable {F : Type}

section
variable (K : Small) (X : Ext F) (H : Set (Name → Val F)) (get : Loc → Option (FExpr F))

/-- The expressions at marked places take few values. -/
def Inv (s : List Loc) : Prop := ∀ l ∈ s, ∀ e, get l = some e → e.Ordinary → K.is (valuesOf X H e)

/-- A dependency preserves this. -/
def DepSound (d : Dep) : Prop := ∀ s, Inv K X H get s → Inv K X H get (d.apply s)

/-- What is known of a node that is walked. -/
def Node (e : FExpr F) : Prop := e = .wild ∨ (e.Ordinary ∧ Defined X H e ∧ Rev K X H e)
end

section
variable {K : Small} {X : Ext F} {H : Set (Name → Val F)} {get : Loc → Option (FExpr F)}

theorem inv_mark {s : List Loc} (hs : Inv K X H get s) {l : Loc} {b : Bool}
    (h : b = true → ∀ e, get l = some e → e.Ordinary → K.is (valuesOf X H e)) : Inv K X H get (mark s l b) := by
  unfold mark
  split
  · rename_i hb
    simp only [Bool.and_eq_true] at hb
    intro l' hl'
    rcases List.mem_cons.1 hl' with rfl | hl'
    · exact h hb.1
    · exact hs l' hl'
  · exact hs

theorem inv_markAll {b : Bool} : ∀ (ls : List Loc) {s : List Loc}, Inv K X H get s →
    (b = true → ∀ l ∈ ls, ∀ e, get l = some e → e.Ordinary → K.is (valuesOf X H e)) → Inv K X H get (markAll s ls b)
  | [], s, hs, _ => hs
  | l :: ls, s, hs, h => by
    simp only [markAll, List.foldl_cons]
    exact inv_markAll ls (inv_mark hs (fun hb => h hb l (by simp))) (fun hb l' hl' => h hb l' (by simp [hl']))

theorem inv_get {s : List Loc} (hs : Inv K X H get s) {l : Loc} (hl : s.contains l = true) {e : FExpr F} (he : get l = some e) (ho : e.Ordinary) :
    K.is (valuesOf X H e) := hs l (by simpa using hl) e he ho

theorem child_mem (p : Loc) : ∀ (n i j : Nat), j < n → p ++ [i + j] ∈ childLocs p i n
  | 0, _, _, h => absurd h (by simp)
  | n + 1, i, 0, _ => by simp [childLocs]
  | n + 1, i, j + 1, h => by
    have := child_mem p n (i + 1) j (by omega)
    simp only [childLocs, List.mem_cons]
    right
    rwa [show i + (j + 1) = i + 1 + j from by omega]

theorem mem_child (p : Loc) : ∀ (n i : Nat) (l : Loc), l ∈ childLocs p i n → ∃ j, j < n ∧ l = p ++ [i + j]
  | 0, _, _, h => by simp [childLocs] at h
  | n + 1, i, l, h => by
    simp only [childLocs, List.mem_cons] at h
    rcases h with rfl | h
    · exact ⟨0, by omega, by simp⟩
    · obtain ⟨j, hj, rfl⟩ := mem_child p n (i + 1) l h
      exact ⟨j + 1, by omega, by rw [show i + (j + 1) = i + 1 + j from by omega]⟩

theorem mem_append_deps {a b : Walked} {d : Dep} : d ∈ (a.append b).deps ↔ d ∈ a.deps ∨ d ∈ b.deps := by simp [Walked.append]
theorem mem_append_vars {a b : Walked} {d : Name × Loc} : d ∈ (a.append b).vars ↔ d ∈ a.vars ∨ d ∈ b.vars := by simp [Walked.append]

mutual
theorem walk_sound : ∀ (e : FExpr F) (p : Loc), (∀ q, get (p ++ q) = e.sub q) → Node K X H e →
    (∀ d ∈ (e.walkDeps p).deps, DepSound K X H get d) ∧ ∀ v ∈ (e.walkDeps p).vars, get v.2 = some (.var v.1)
  | .const c, p, hg, hn => by
    refine ⟨?_, by simp [FExpr.walkDeps]⟩
    simp only [FExpr.walkDeps, List.mem_singleton]
    rintro d rfl s hs
    refine inv_mark hs (fun _ e he _ => ?_)
    have := hg []
    simp only [List.append_nil, sub_nil] at this
    rw [this] at he
    cases he
    refine K.subset (K.single c) ?_
    rintro v ⟨σ, _, h⟩
    simpa [FExpr.EvalsTo] using h
  | .var x, p, hg, hn => by
    refine ⟨by simp [FExpr.walkDeps], ?_⟩
    simp only [FExpr.walkDeps, List.mem_singleton]
    rintro v rfl
    have := hg []
    simpa only [List.append_nil, sub_nil] using this
  | .wild, p, hg, hn => by simp [FExpr.walkDeps]
  | .bin op a b, p, hg, hn => by
    rcases hn with hn | ⟨ho, hd, hr⟩
    · cases hn
    simp only [FExpr.Ordinary] at ho
    have g0 := hg []
    simp only [List.append_nil, sub_nil] at g0
    have g1 : ∀ q, get (p ++ [0] ++ q) = a.sub q := fun q => by rw [List.append_assoc]; rw [hg]; simp [FExpr.sub]
    have g2 : ∀ q, get (p ++ [1] ++ q) = b.sub q := fun q => by rw [List.append_assoc]; rw [hg]; simp [FExpr.sub]
    have e1 := g1 []
    have e2 := g2 []
    simp only [List.append_nil, sub_nil] at e1 e2
    have da : Defined X H a := fun σ hσ => by
      obtain ⟨v, hv⟩ := hd σ hσ
      simp only [FExpr.EvalsTo] at hv
      obtain ⟨x, y, h1, _⟩ := hv
      exact ⟨x, h1⟩
    have db : Defined X H b := fun σ hσ => by
      obtain ⟨v, hv⟩ := hd σ hσ
      simp only [FExpr.EvalsTo] at hv
      obtain ⟨x, y, _, h1, _⟩ := hv
      exact ⟨y, h1⟩
    have r1 := walk_sound a (p ++ [0]) g1 (.inr ⟨ho.1, da, fun q => hr (0 :: q)⟩)
    have r2 := walk_sound b (p ++ [1]) g2 (.inr ⟨ho.2, db, fun q => hr (1 :: q)⟩)
    have key : ∀ s, Inv K X H get s → s.contains (p ++ [0]) = true → s.contains (p ++ [1]) = true → ∀ e, get p = some e → e.Ordinary → K.is (valuesOf X H e) := by
      intro s hs h1 h2 e he _
      rw [g0] at he
      cases he
      exact values_bin (inv_get hs h1 e1 ho.1) (inv_get hs h2 e2 ho.2)
    refine ⟨fun d hd' => ?_, fun v hv => ?_⟩
    · simp only [FExpr.walkDeps, mem_append_deps, List.mem_singleton] at hd'
      rcases hd' with rfl | hd' | hd'
      · intro s hs
        split
        · rename_i hop
          simp only [Dep.apply]
          split
          · rename_i h
            simp only [Bool.and_eq_true] at h
            exact inv_mark hs (fun _ => key s hs h.1.1 h.1.2)
          · split
            · rename_i h
              simp only [Bool.and_eq_true] at h
              refine inv_mark hs (fun _ e he _ => ?_)
              rw [e2] at he
              cases he
              exact (hr [] op a b (sub_nil _) hop).1 (inv_get hs h.1.1 e1 ho.1) (inv_get hs h.2 g0 (by simpa [FExpr.Ordinary] using ho))
            · split
              · rename_i h
                simp only [Bool.and_eq_true] at h
                refine inv_mark hs (fun _ e he _ => ?_)
                rw [e1] at he
                cases he
                exact (hr [] op a b (sub_nil _) hop).2 (inv_get hs h.1.2 e2 ho.2) (inv_get hs h.2 g0 (by simpa [FExpr.Ordinary] using ho))
              · exact hs
        · simp only [Dep.apply]
          refine inv_mark hs (fun h => ?_)
          simp only [Bool.and_eq_true] at h
          exact key s hs h.1 h.2
      · exact r1.1 d hd'
      · exact r2.1 d hd'
    · simp only [FExpr.walkDeps, mem_append_vars, List.not_mem_nil, false_or] at hv
      rcases hv with hv | hv
      · exact r1.2 v hv
      · exact r2.2 v hv
  | .un op a, p, hg, hn => by
    rcases hn with hn | ⟨ho, hd, hr⟩
    · cases hn
    simp only [FExpr.Ordinary] at ho
    have g0 := hg []
    simp only [List.append_nil, sub_nil] at g0
    have g1 : ∀ q, get (p ++ [0] ++ q) = a.sub q := fun q => by rw [List.append_assoc]; rw [hg]; simp [FExpr.sub]
    have e1 := g1 []
    simp only [List.append_nil, sub_nil] at e1
    have da : Defined X H a := fun σ hσ => by
      obtain ⟨v, hv⟩ := hd σ hσ
      simp only [FExpr.EvalsTo] at hv
      obtain ⟨x, h1, _⟩ := hv
      exact ⟨x, h1⟩
    have r1 := walk_sound a (p ++ [0]) g1 (.inr ⟨ho, da, fun q => hr (0 :: q)⟩)
    refine ⟨fun d hd' => ?_, fun v hv => ?_⟩
    · simp only [FExpr.walkDeps, mem_append_deps, List.mem_singleton] at hd'
      rcases hd' with rfl | hd'
      · intro s hs
        refine inv_mark hs (fun h e he _ => ?_)
        rw [g0] at he
        cases he
        exact values_un (inv_get hs h e1 ho)
      · exact r1.1 d hd'
    · simp only [FExpr.walkDeps, mem_append_vars, List.not_mem_nil, false_or] at hv
      exact r1.2 v hv
  | .ite c t e, p, hg, hn => by
    rcases hn with hn | ⟨ho, hd, hr⟩
    · cases hn
    simp only [FExpr.Ordinary] at ho
    have g0 := hg []
    simp only [List.append_nil, sub_nil] at g0
    have g1 : ∀ q, get (p ++ [0] ++ q) = c.sub q := fun q => by rw [List.append_assoc]; rw [hg]; simp [FExpr.sub]
    have g2 : ∀ q, get (p ++ [1] ++ q) = t.sub q := fun q => by rw [List.append_assoc]; rw [hg]; simp [FExpr.sub]
    have g3 : ∀ q, get (p ++ [2] ++ q) = e.sub q := fun q => by rw [List.append_assoc]; rw [hg]; simp [FExpr.sub]
    have e1 := g1 []
    have e2 := g2 []
    have e3 := g3 []
    simp only [List.append_nil, sub_nil] at e1 e2 e3
    have dd : Defined X H c ∧ Defined X H t ∧ Defined X H e := by
      refine ⟨fun σ hσ => ?_, fun σ hσ => ?_, fun σ hσ => ?_⟩
      all_goals
        obtain ⟨v, hv⟩ := hd σ hσ
        simp only [FExpr.EvalsTo] at hv
        obtain ⟨b, x, y, h1, h2, h3, _⟩ := hv
        first | exact ⟨_, h1⟩ | exact ⟨_, h2⟩ | exact ⟨_, h3⟩
    have r1 := walk_sound c (p ++ [0]) g1 (.inr ⟨ho.1, dd.1, fun q => hr (0 :: q)⟩)
    have r2 := walk_sound t (p ++ [1]) g2 (.inr ⟨ho.2.1, dd.2.1, fun q => hr (1 :: q)⟩)
    have r3 := walk_sound e (p ++ [2]) g3 (.inr ⟨ho.2.2, dd.2.2, fun q => hr (2 :: q)⟩)
    refine ⟨fun d hd' => ?_, fun v hv => ?_⟩
    · simp only [FExpr.walkDeps, mem_append_deps, List.mem_singleton] at hd'
      rcases hd' with rfl | hd' | hd' | hd'
      · intro s hs
        refine inv_mark hs (fun h e' he _ => ?_)
        simp only [Bool.and_eq_true] at h
        rw [g0] at he
        cases he
        exact values_ite (inv_get hs h.1.1 e1 ho.1) (inv_get hs h.1.2 e2 ho.2.1) (inv_get hs h.2 e3 ho.2.2)
      · exact r1.1 d hd'
      · exact r2.1 d hd'
      · exact r3.1 d hd'
    · simp only [FExpr.walkDeps, mem_append_vars, List.not_mem_nil, false_or] at hv
      rcases hv with hv | hv | hv
      · exact r1.2 v hv
      · exact r2.2 v hv
      · exact r3.2 v hv
  | .call f args, p, hg, hn => by
    rcases hn with hn | ⟨ho, hd, hr⟩
    · cases hn
    simp only [FExpr.Ordinary] at ho
    have g0 := hg []
    simp only [List.append_nil, sub_nil] at g0
    have g1 : ∀ j q, get (p ++ (0 + j) :: q) = FExpr.subAll args j q := fun j q => by rw [hg]; simp [FExpr.sub]
    have dd : ∀ e ∈ args, Node K X H e := fun e he => by
      obtain ⟨i, hi, rfl⟩ := List.mem_iff_getElem.1 he
      refine .inr ⟨(allOrdinary_iff args).1 ho _ he, fun σ hσ => ?_, fun q op a b hq => hr (i :: q) op a b (by
        simp only [FExpr.sub, subAll_eq, List.getElem?_eq_getElem hi, Option.bind_some]; exact hq)⟩
      obtain ⟨v, hv⟩ := hd σ hσ
      simp only [FExpr.EvalsTo] at hv
      obtain ⟨vs, h1, _⟩ := hv
      obtain ⟨w, _, hw⟩ := allEvalTo_get args vs h1 i _ (List.getElem?_eq_getElem hi)
      exact ⟨w, hw⟩
    have r1 := walkAll_sound args p 0 g1 dd
    refine ⟨fun d hd' => ?_, fun v hv => ?_⟩
    · simp only [FExpr.walkDeps, mem_append_deps, List.mem_singleton] at hd'
      rcases hd' with rfl | hd'
      · intro s hs
        refine inv_mark hs (fun h e' he _ => ?_)
        rw [g0] at he
        cases he
        refine values_call (fun e he => ?_)
        obtain ⟨i, hi, rfl⟩ := List.mem_iff_getElem.1 he
        rw [List.all_eq_true] at h
        refine inv_get hs (h _ (child_mem p args.length 0 i hi)) ?_ ((allOrdinary_iff args).1 ho _ he)
        rw [g1 i [], subAll_eq]
        simp [List.getElem?_eq_getElem hi, sub_nil]
      · exact r1.1 d hd'
    · simp only [FExpr.walkDeps, mem_append_vars, List.not_mem_nil, false_or] at hv
      exact r1.2 v hv
  | .new f args, p, hg, hn => by
    rcases hn with hn | ⟨ho, hd, hr⟩
    · cases hn
    simp only [FExpr.Ordinary] at ho
    have g1 : ∀ j q, get (p ++ (0 + j) :: q) = FExpr.subAll args j q := fun j q => by rw [hg]; simp [FExpr.sub]
    have dd : ∀ e ∈ args, Node K X H e := fun e he => by
      obtain ⟨i, hi, rfl⟩ := List.mem_iff_getElem.1 he
      refine .inr ⟨(allOrdinary_iff args).1 ho _ he, fun σ hσ => ?_, fun q op a b hq => hr (i :: q) op a b (by
        simp only [FExpr.sub, subAll_eq, List.getElem?_eq_getElem hi, Option.bind_some]; exact hq)⟩
      obtain ⟨v, hv⟩ := hd σ hσ
      simp only [FExpr.EvalsTo] at hv
      obtain ⟨vs, h1, _⟩ := hv
      obtain ⟨w, _, hw⟩ := allEvalTo_get args vs h1 i _ (List.getElem?_eq_getElem hi)
      exact ⟨w, hw⟩
    have r1 := walkAll_sound args p 0 g1 dd
    simpa only [FExpr.walkDeps] using r1
theorem walkAll_sound : ∀ (es : List (FExpr F)) (p : Loc) (i : Nat), (∀ j q, get (p ++ (i + j) :: q) = FExpr.subAll es j q) → (∀ e ∈ es, Node K X H e) →
    (∀ d ∈ (FExpr.walkAll p i es).deps, DepSound K X H get d) ∧ ∀ v ∈ (FExpr.walkAll p i es).vars, get v.2 = some (.var v.1)
  | [], p, i, _, _ => by simp [FExpr.walkAll]
  | e :: es, p, i, hg, hn => by
    have r1 := walk_sound e (p ++ [i]) (fun q => by have := hg 0 q; simpa [FExpr.subAll] using this) (hn e (by simp))
    have r2 := walkAll_sound es p (i + 1) (fun j q => by
      have := hg (j + 1) q
      rw [show i + 1 + j = i + (j + 1) from by omega, this]
      simp [FExpr.subAll]) (fun e' he => hn e' (by simp [he]))
    refine ⟨fun d hd' => ?_, fun v hv => ?_⟩
    · simp only [FExpr.walkAll, mem_append_deps] at hd'
      rcases hd' with hd' | hd'
      · exact r1.1 d hd'
      · exact r2.1 d hd'
    · simp only [FExpr.walkAll, mem_append_vars] at hv
      rcases hv with hv | hv
      · exact r1.2 v hv
      · exact r2.2 v hv
end

end
end Scallop.Front
