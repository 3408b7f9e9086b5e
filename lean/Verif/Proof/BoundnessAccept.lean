import Verif.Proof.BoundnessFinite

/-!
# Boundness analysis: rules whose variables are arguments of atoms are accepted
-/

namespace Scallop.Front

variable {F : Type}

/-! ## What is found is closed -/

theorem ext_antisymm {a b : List Loc} (h1 : Ext' a b) (h2 : Ext' b a) : a = b := by
  obtain ⟨t, rfl⟩ := h1
  obtain ⟨u, hu⟩ := h2
  have := congrArg List.length hu
  simp only [List.length_append] at this
  have : t = [] := List.length_eq_zero_iff.1 (by omega)
  simp [this]

theorem ext_deps : ∀ (ds : List Dep) (s : List Loc), Ext' s (ds.foldl Dep.apply s)
  | [], s => ext_refl s
  | d :: ds, s => ext_trans (ext_apply d s) (ext_deps ds _)

theorem ext_vars (vars : List (Name × Loc)) : ∀ (xs : List Name) (s : List Loc),
    Ext' s (xs.foldl (fun s x => markAll s (locsOf vars x) ((locsOf vars x).any s.contains)) s)
  | [], s => ext_refl s
  | x :: xs, s => ext_trans (ext_markAll _ _) (ext_vars vars xs _)

theorem deps_closed : ∀ (ds : List Dep) (s : List Loc), ds.foldl Dep.apply s = s → ∀ d ∈ ds, d.apply s = s
  | [], s, _, d, hd => by simp at hd
  | d :: ds, s, h, d', hd => by
    have h1 : d.apply s = s := (ext_antisymm (ext_apply d s) (by have := ext_deps ds (d.apply s); rw [List.foldl_cons] at h; rwa [h] at this)).symm
    rcases List.mem_cons.1 hd with rfl | hd
    · exact h1
    · rw [List.foldl_cons, h1] at h
      exact deps_closed ds s h d' hd

theorem vars_closed (vars : List (Name × Loc)) : ∀ (xs : List Name) (s : List Loc),
    xs.foldl (fun s x => markAll s (locsOf vars x) ((locsOf vars x).any s.contains)) s = s →
    ∀ x ∈ xs, markAll s (locsOf vars x) ((locsOf vars x).any s.contains) = s
  | [], s, _, x, hx => by simp at hx
  | x :: xs, s, h, y, hy => by
    rw [List.foldl_cons] at h
    have h1 := ext_vars vars xs (markAll s (locsOf vars x) ((locsOf vars x).any s.contains))
    rw [h] at h1
    have h2 := (ext_antisymm (ext_markAll _ _) h1).symm
    rcases List.mem_cons.1 hy with rfl | hy
    · exact h2
    · rw [h2] at h
      exact vars_closed vars xs s h y hy

theorem step_closed {w : Walked} {s : List Loc} (h : boundStep w s = s) :
    (∀ d ∈ w.deps, d.apply s = s) ∧ ∀ x ∈ varNames w.vars, markAll s (locsOf w.vars x) ((locsOf w.vars x).any s.contains) = s := by
  have h1 := ext_vars w.vars (varNames w.vars) (w.deps.foldl Dep.apply s)
  unfold boundStep applyVars at h
  rw [h] at h1
  have h2 := (ext_antisymm (ext_deps w.deps s) h1).symm
  refine ⟨deps_closed _ _ h2, ?_⟩
  rw [h2] at h
  exact vars_closed _ _ _ h

theorem mark_closed {s : List Loc} {l : Loc} (h : mark s l true = s) : s.contains l = true := by
  unfold mark at h
  split at h
  · have := congrArg List.length h
    simp at this
  · rename_i hb
    simpa using hb

theorem mem_markAll : ∀ (ls : List Loc) (s : List Loc) (l : Loc), l ∈ ls → l ∈ markAll s ls true
  | [], s, l, h => by simp at h
  | l' :: ls, s, l, h => by
    simp only [markAll, List.foldl_cons]
    rcases List.mem_cons.1 h with rfl | h
    · obtain ⟨t, ht⟩ := ext_markAll (b := true) ls (mark s l true)
      unfold markAll at ht
      rw [ht]
      refine List.mem_append_right _ ?_
      unfold mark
      split
      · simp
      · rename_i hb; simpa using hb
    · exact mem_markAll ls _ l h

/-- All the places of a variable are marked if one is. -/
theorem var_closed {w : Walked} {s : List Loc} (h : boundStep w s = s) {x : Name} {l : Loc} (hl : (x, l) ∈ w.vars) (hm : s.contains l = true) :
    ∀ l' ∈ locsOf w.vars x, s.contains l' = true := by
  have h1 := (step_closed h).2 x (by simp only [varNames, List.mem_dedup, List.mem_map]; exact ⟨_, hl, rfl⟩)
  have h2 : (locsOf w.vars x).any s.contains = true := by
    rw [List.any_eq_true]
    exact ⟨l, by simp only [locsOf, List.mem_map, List.mem_filter, decide_eq_true_eq]; exact ⟨_, ⟨hl, rfl⟩, rfl⟩, hm⟩
  rw [h2] at h1
  intro l' hl'
  have := mem_markAll (locsOf w.vars x) s l' hl'
  rw [h1] at this
  simpa using this

/-! ## Expressions without wildcards and new entities -/

mutual
theorem computable_marked {s : List Loc} : ∀ (e : FExpr F) (p : Loc), e.Computable → (∀ d ∈ (e.walkDeps p).deps, d.apply s = s) →
    (∀ v ∈ (e.walkDeps p).vars, s.contains v.2 = true) → s.contains p = true
  | .const _, p, _, hd, _ => mark_closed (by simpa [Dep.apply] using hd (.constant p) (by simp [FExpr.walkDeps]))
  | .var x, p, _, _, hv => hv (x, p) (by simp [FExpr.walkDeps])
  | .wild, _, h, _, _ => by simp [FExpr.Computable] at h
  | .bin op a b, p, h, hd, hv => by
    simp only [FExpr.Computable] at h
    simp only [FExpr.walkDeps, mem_append_deps, mem_append_vars, List.mem_singleton, List.not_mem_nil, false_or] at hd hv
    have h1 := computable_marked a (p ++ [0]) h.1 (fun d h => hd d (.inr (.inl h))) (fun v h => hv v (.inl h))
    have h2 := computable_marked b (p ++ [1]) h.2 (fun d h => hd d (.inr (.inr h))) (fun v h => hv v (.inr h))
    have h3 := hd _ (.inl rfl)
    split at h3
    · simp only [Dep.apply, h1, h2] at h3
      cases hp : s.contains p with
      | true => rfl
      | false =>
        rw [hp] at h3
        simp only [Bool.and_self, Bool.not_false, if_true] at h3
        rw [← hp]
        exact mark_closed h3
    · simp only [Dep.apply, h1, h2, Bool.and_self] at h3
      exact mark_closed h3
  | .un op a, p, h, hd, hv => by
    simp only [FExpr.Computable] at h
    simp only [FExpr.walkDeps, mem_append_deps, mem_append_vars, List.mem_singleton, List.not_mem_nil, false_or] at hd hv
    have h1 := computable_marked a (p ++ [0]) h (fun d h => hd d (.inr h)) hv
    have h3 := hd _ (.inl rfl)
    simp only [Dep.apply, h1] at h3
    exact mark_closed h3
  | .ite c t e, p, h, hd, hv => by
    simp only [FExpr.Computable] at h
    simp only [FExpr.walkDeps, mem_append_deps, mem_append_vars, List.mem_singleton, List.not_mem_nil, false_or] at hd hv
    have h1 := computable_marked c (p ++ [0]) h.1 (fun d h => hd d (.inr (.inl h))) (fun v h => hv v (.inl h))
    have h2 := computable_marked t (p ++ [1]) h.2.1 (fun d h => hd d (.inr (.inr (.inl h)))) (fun v h => hv v (.inr (.inl h)))
    have h3 := computable_marked e (p ++ [2]) h.2.2 (fun d h => hd d (.inr (.inr (.inr h)))) (fun v h => hv v (.inr (.inr h)))
    have h4 := hd _ (.inl rfl)
    simp only [Dep.apply, h1, h2, h3, Bool.and_self] at h4
    exact mark_closed h4
  | .call f args, p, h, hd, hv => by
    simp only [FExpr.Computable] at h
    simp only [FExpr.walkDeps, mem_append_deps, mem_append_vars, List.mem_singleton, List.not_mem_nil, false_or] at hd hv
    have h1 := computable_markedAll args p 0 h (fun d h => hd d (.inr h)) hv
    have h3 := hd _ (.inl rfl)
    simp only [Dep.apply] at h3
    rw [List.all_eq_true.2 h1] at h3
    exact mark_closed h3
  | .new _ _, _, h, _, _ => by simp [FExpr.Computable] at h
theorem computable_markedAll {s : List Loc} : ∀ (es : List (FExpr F)) (p : Loc) (i : Nat), FExpr.AllComputable es →
    (∀ d ∈ (FExpr.walkAll p i es).deps, d.apply s = s) → (∀ v ∈ (FExpr.walkAll p i es).vars, s.contains v.2 = true) →
    ∀ l ∈ childLocs p i es.length, s.contains l = true
  | [], p, i, _, _, _ => by simp [childLocs]
  | e :: es, p, i, h, hd, hv => by
    simp only [FExpr.AllComputable] at h
    simp only [FExpr.walkAll, mem_append_deps, mem_append_vars] at hd hv
    have h1 := computable_marked e (p ++ [i]) h.1 (fun d h => hd d (.inl h)) (fun v h => hv v (.inl h))
    have h2 := computable_markedAll es p (i + 1) h.2 (fun d h => hd d (.inr h)) (fun v h => hv v (.inr h))
    intro l hl
    simp only [List.length_cons, childLocs, List.mem_cons] at hl
    rcases hl with rfl | hl
    · exact h1
    · exact h2 l hl
end

/-! ## Variables that are walked -/

mutual
theorem walk_vars : ∀ (e : FExpr F) (p : Loc), (e.walkDeps p).vars.map Prod.fst = e.usedVars
  | .const _, p => by simp [FExpr.walkDeps, FExpr.usedVars]
  | .var x, p => by simp [FExpr.walkDeps, FExpr.usedVars]
  | .wild, p => by simp [FExpr.walkDeps, FExpr.usedVars]
  | .bin op a b, p => by simp [FExpr.walkDeps, FExpr.usedVars, Walked.append, walk_vars a, walk_vars b]
  | .un op a, p => by simp [FExpr.walkDeps, FExpr.usedVars, Walked.append, walk_vars a]
  | .ite c t e, p => by simp [FExpr.walkDeps, FExpr.usedVars, Walked.append, walk_vars c, walk_vars t, walk_vars e]
  | .call f args, p => by simp [FExpr.walkDeps, FExpr.usedVars, Walked.append, walkAll_vars args]
  | .new f args, p => by simp [FExpr.walkDeps, FExpr.usedVars, walkAll_vars args]
theorem walkAll_vars : ∀ (es : List (FExpr F)) (p : Loc) (i : Nat), (FExpr.walkAll p i es).vars.map Prod.fst = FExpr.usedVarsAll es
  | [], p, i => by simp [FExpr.walkAll, FExpr.usedVarsAll]
  | e :: es, p, i => by simp [FExpr.walkAll, FExpr.usedVarsAll, Walked.append, walk_vars e, walkAll_vars es]
end

theorem mem_walkAll_vars {x : Name} : ∀ (es : List (FExpr F)) (p : Loc) (i : Nat), .var x ∈ es →
    ∃ j, j < es.length ∧ (x, p ++ [i + j]) ∈ (FExpr.walkAll p i es).vars
  | [], p, i, h => by simp at h
  | e :: es, p, i, h => by
    rcases List.mem_cons.1 h with rfl | h
    · exact ⟨0, by simp, by simp [FExpr.walkAll, FExpr.walkDeps, Walked.append]⟩
    · obtain ⟨j, hj, h⟩ := mem_walkAll_vars es p (i + 1) h
      refine ⟨j + 1, by simp; omega, ?_⟩
      simp only [FExpr.walkAll, mem_append_vars]
      right
      rwa [show i + (j + 1) = i + 1 + j from by omega]

theorem formula_vars (B : Bindings) (f : Formula F) (p : Loc) : (f.walkDeps B p).vars.map Prod.fst = f.posVars := by
  cases f <;> simp [Formula.walkDeps, Formula.posVars, Walked.append, walkAll_vars, walk_vars]

theorem formulas_vars (B : Bindings) : ∀ (fs : List (Formula F)) (i : Nat), (walkFormulas B i fs).vars.map Prod.fst = fs.flatMap Formula.posVars
  | [], i => by simp [walkFormulas]
  | f :: fs, i => by
    simp only [walkFormulas, List.flatMap_cons]
    rw [← formulas_vars B fs (i + 1), ← formula_vars B f [i]]
    simp [Walked.append]

theorem exprs_vars : ∀ (es : List (FExpr F)) (i : Nat), (walkExprs i es).vars.map Prod.fst = FExpr.usedVarsAll es
  | [], i => by simp [walkExprs, FExpr.usedVarsAll]
  | e :: es, i => by
    simp only [walkExprs, FExpr.usedVarsAll]
    rw [← exprs_vars es (i + 1), ← walk_vars e [i]]
    simp [Walked.append]

theorem exprs_constraints : ∀ (es : List (FExpr F)) (i : Nat), (∀ e ∈ es, True) → (walkExprs i es).constraints = []
  | [], i, _ => by simp [walkExprs]
  | e :: es, i, _ => by
    simp only [walkExprs, Walked.append]
    rw [exprs_constraints es (i + 1) (by simp), walk_constraints e]
    rfl
where
  walk_constraints : ∀ (e : FExpr F) {p : Loc}, (e.walkDeps p).constraints = []
    | .const _, p => by simp [FExpr.walkDeps]
    | .var x, p => by simp [FExpr.walkDeps]
    | .wild, p => by simp [FExpr.walkDeps]
    | .bin op a b, p => by simp [FExpr.walkDeps, Walked.append, walk_constraints a, walk_constraints b]
    | .un op a, p => by simp [FExpr.walkDeps, Walked.append, walk_constraints a]
    | .ite c t e, p => by simp [FExpr.walkDeps, Walked.append, walk_constraints c, walk_constraints t, walk_constraints e]
    | .call f args, p => by simp [FExpr.walkDeps, Walked.append, walkAll_constraints args]
    | .new f args, p => by simp [FExpr.walkDeps, walkAll_constraints args]
  walkAll_constraints : ∀ (es : List (FExpr F)) {p : Loc} {i : Nat}, (FExpr.walkAll p i es).constraints = []
    | [], p, i => by simp [FExpr.walkAll]
    | e :: es, p, i => by simp [FExpr.walkAll, Walked.append, walk_constraints e, walkAll_constraints es]

theorem walkFormulas_mem (B : Bindings) : ∀ (fs : List (Formula F)) (i : Nat) (f : Formula F), f ∈ fs → ∃ p,
    (∀ d ∈ (f.walkDeps B p).deps, d ∈ (walkFormulas B i fs).deps) ∧ (∀ v ∈ (f.walkDeps B p).vars, v ∈ (walkFormulas B i fs).vars)
  | [], i, f, h => by simp at h
  | g :: fs, i, f, h => by
    rcases List.mem_cons.1 h with rfl | h
    · exact ⟨[i], fun d hd => mem_append_deps.2 (.inl hd), fun d hd => mem_append_vars.2 (.inl hd)⟩
    · obtain ⟨p, h1, h2⟩ := walkFormulas_mem B fs (i + 1) f h
      exact ⟨p, fun d hd => mem_append_deps.2 (.inr (h1 d hd)), fun d hd => mem_append_vars.2 (.inr (h2 d hd))⟩

theorem walkFormulas_constraints (B : Bindings) : ∀ (fs : List (Formula F)) (i : Nat) (l : Loc), l ∈ (walkFormulas B i fs).constraints →
    ∃ e, .constraint e ∈ fs ∧ (∀ d ∈ (e.walkDeps l).deps, d ∈ (walkFormulas B i fs).deps) ∧ (∀ v ∈ (e.walkDeps l).vars, v ∈ (walkFormulas B i fs).vars)
  | [], i, l, h => by simp [walkFormulas] at h
  | f :: fs, i, l, h => by
    simp only [walkFormulas, Walked.append, List.mem_append] at h
    rcases h with h | h
    · cases f with
      | constraint e =>
        simp only [Formula.walkDeps, Walked.append, exprs_constraints.walk_constraints, List.append_nil, List.mem_singleton] at h
        subst h
        refine ⟨e, by simp, fun d hd => mem_append_deps.2 (.inl ?_), fun d hd => mem_append_vars.2 (.inl ?_)⟩
        · simp only [Formula.walkDeps, mem_append_deps]; exact .inr hd
        · simp only [Formula.walkDeps, mem_append_vars]; exact .inr hd
      | atom p args => simp [Formula.walkDeps, Walked.append, exprs_constraints.walkAll_constraints] at h
      | _ => simp [Formula.walkDeps] at h
    · obtain ⟨e, h1, h2, h3⟩ := walkFormulas_constraints B fs (i + 1) l h
      exact ⟨e, by simp [h1], fun d hd => mem_append_deps.2 (.inr (h2 d hd)), fun d hd => mem_append_vars.2 (.inr (h3 d hd))⟩

/-- The check of a conjunction all of whose variables are arguments of atoms of relations, with constraints that can be computed, succeeds. -/
theorem local_accepts (B : Bindings) (c : ConjCtx F) (dem : List (FExpr F))
    (hv : ∀ x ∈ c.pos.flatMap Formula.posVars ++ FExpr.usedVarsAll dem, ∃ p args, .atom p args ∈ c.pos ∧ B p = none ∧ .var x ∈ args)
    (hc : ∀ e, .constraint e ∈ c.pos → e.Computable) :
    c.local B dem [] = .ok (varNames ((walkFormulas B 0 c.pos).append (walkExprs c.pos.length dem)).vars) := by
  unfold ConjCtx.local Walked.compute
  obtain ⟨s, h1, h2, _⟩ := bound_terminates ((walkFormulas B 0 c.pos).append (walkExprs c.pos.length dem))
    (markAll ((List.range dem.length).map (fun i => [c.pos.length + i]))
      (((((walkFormulas B 0 c.pos).append (walkExprs c.pos.length dem)).vars.filter (fun v => ([] : List Name).contains v.1)).map Prod.snd)) true)
  rw [h1]
  simp only
  generalize hw : (walkFormulas B 0 c.pos).append (walkExprs c.pos.length dem) = w at *
  have hdeps : ∀ d ∈ (walkFormulas B 0 c.pos).deps, d.apply s = s := fun d hd => (step_closed h2).1 d (by rw [← hw]; exact mem_append_deps.2 (.inl hd))
  have hsub : ∀ v ∈ (walkFormulas B 0 c.pos).vars, v ∈ w.vars := fun v hd => by rw [← hw]; exact mem_append_vars.2 (.inl hd)
  have hvars : ∀ x ∈ varNames w.vars, ∀ l ∈ locsOf w.vars x, s.contains l = true := by
    intro x hx
    simp only [varNames, List.mem_dedup, ← hw, Walked.append, List.map_append, formulas_vars, exprs_vars] at hx
    obtain ⟨p, args, ha, hB, hxa⟩ := hv x hx
    obtain ⟨q, k1, k2⟩ := walkFormulas_mem B c.pos 0 _ ha
    obtain ⟨j, hj, hm⟩ := mem_walkAll_vars args q 0 hxa
    have hm' : (x, q ++ [0 + j]) ∈ w.vars := hsub _ (k2 _ (by simp only [Formula.walkDeps, mem_append_vars]; exact .inr hm))
    have hd : Dep.relationArg (q ++ [0 + j]) ∈ (walkFormulas B 0 c.pos).deps := k1 _ (by
      simp only [Formula.walkDeps, mem_append_deps]
      left
      simp only [atomDeps, hB, List.mem_map]
      exact ⟨_, child_mem q args.length 0 j hj, rfl⟩)
    exact var_closed h2 hm' (mark_closed (by simpa [Dep.apply] using hdeps _ hd))
  have hcons : ∀ l ∈ w.constraints, s.contains l = true := by
    intro l hl
    rw [← hw] at hl
    simp only [Walked.append, exprs_constraints _ _ (fun _ _ => trivial), List.append_nil] at hl
    obtain ⟨e, he, k1, k2⟩ := walkFormulas_constraints B c.pos 0 l hl
    refine computable_marked e l (hc e he) (fun d hd => hdeps d (k1 d hd)) (fun v hv' => ?_)
    have hin := hsub v (k2 v hv')
    refine hvars v.1 ?_ v.2 ?_
    · simp only [varNames, List.mem_dedup, List.mem_map]; exact ⟨v, hin, rfl⟩
    · simp only [locsOf, List.mem_map, List.mem_filter, decide_eq_true_eq]; exact ⟨v, ⟨hin, rfl⟩, rfl⟩
  rw [if_pos]
  · simp
  · simp only [Bool.and_eq_true, List.all_eq_true]
    exact ⟨hvars, hcons⟩

/-! ## Rules -/

/-- The conjunction of one literal. -/
def litCtx : Formula F → ConjCtx F
  | .neg p args => { neg := [.neg p args] }
  | f => { pos := [f] }

theorem fromFormula_lit (f : Formula F) (h : f.IsLit) : fromFormula f = some [litCtx f] := by
  cases f <;> simp [Formula.IsLit] at h <;> rfl

theorem fromAll_lits : ∀ fs : List (Formula F), (∀ f ∈ fs, f.IsLit) → fromFormula.fromAll fs = some (fs.map (fun f => [litCtx f]))
  | [], _ => rfl
  | f :: fs, h => by
    simp [fromFormula.fromAll, fromFormula_lit f (h f (by simp)), fromAll_lits fs (fun f' h' => h f' (by simp [h']))]

theorem multiProduct_single {α : Type} : ∀ l : List α, l ≠ [] → multiProduct (l.map (fun x => [x])) = [l]
  | [], h => absurd rfl h
  | [x], _ => rfl
  | x :: y :: l, _ => by
    have := multiProduct_single (y :: l) (by simp)
    simp only [List.map_cons] at this
    simp [multiProduct, this]

theorem join_fold : ∀ (cs : List (ConjCtx F)) (a : ConjCtx F),
    cs.foldl (fun acc new => ⟨acc.pos ++ new.pos, acc.neg ++ new.neg, acc.agg ++ new.agg⟩) a =
      ⟨a.pos ++ cs.flatMap ConjCtx.pos, a.neg ++ cs.flatMap ConjCtx.neg, a.agg ++ cs.flatMap ConjCtx.agg⟩
  | [], a => by simp
  | c :: cs, a => by rw [List.foldl_cons, join_fold cs]; simp

theorem fromFormula_conj (fs : List (Formula F)) (hne : fs ≠ []) (h : ∀ f ∈ fs, f.IsLit) :
    ∃ c, fromFormula (.conj fs) = some [c] ∧ c.agg = [] ∧ ∀ f, f ∈ c.pos ↔ f ∈ fs ∧ ∀ p args, f ≠ .neg p args := by
  have e : fs.map (fun f => [litCtx f]) = (fs.map litCtx).map (fun x => [x]) := by simp
  refine ⟨ConjCtx.join (fs.map litCtx), ?_, ?_, ?_⟩
  · rw [fromFormula, fromAll_lits fs h, e, Option.map_some, multiProduct_single _ (by simpa using hne)]
    rfl
  · simp only [ConjCtx.join, join_fold, List.nil_append, List.flatMap_eq_nil_iff, List.mem_map]
    rintro c ⟨f, _, rfl⟩
    cases f <;> rfl
  · intro f
    simp only [ConjCtx.join, join_fold, List.nil_append, List.mem_flatMap, List.mem_map]
    constructor
    · rintro ⟨c, ⟨g, hg, rfl⟩, hf⟩
      have hl := h g hg
      cases g <;> simp [litCtx, Formula.IsLit] at hf hl <;> subst hf <;> exact ⟨hg, by simp⟩
    · rintro ⟨hf, hn⟩
      refine ⟨_, ⟨f, hf, rfl⟩, ?_⟩
      have hl := h f hf
      cases f <;> simp [litCtx, Formula.IsLit] at hl ⊢
      exact absurd rfl (hn _ _)

theorem mem_usedVarsAll : ∀ (es : List (FExpr F)) (x : Name), x ∈ FExpr.usedVarsAll es ↔ ∃ e ∈ es, x ∈ e.usedVars
  | [], x => by simp [FExpr.usedVarsAll]
  | e :: es, x => by simp [FExpr.usedVarsAll, mem_usedVarsAll es x]

theorem rule_accepted (B : Bindings) (demand : List Bool) (args : List (FExpr F)) (fs : List (Formula F)) (hne : fs ≠ []) (hl : ∀ f ∈ fs, f.IsLit)
    (hv : ∀ x ∈ fs.flatMap Formula.posVars ++ FExpr.usedVarsAll args, ∃ p as, .atom p as ∈ fs ∧ B p = none ∧ .var x ∈ as)
    (hc : ∀ e, .constraint e ∈ fs → e.Computable) : ∃ bs, checkRule B demand args (.conj fs) = .ok bs := by
  obtain ⟨c, e1, e2, e3⟩ := fromFormula_conj fs hne hl
  generalize hdem : ((args.zip demand).filter (fun a => a.2)).map Prod.fst = dem
  have hsub : ∀ x ∈ FExpr.usedVarsAll dem, x ∈ FExpr.usedVarsAll args := by
    intro x hx
    rw [mem_usedVarsAll] at hx ⊢
    obtain ⟨e, he, hx⟩ := hx
    rw [← hdem] at he
    simp only [List.mem_map, List.mem_filter] at he
    obtain ⟨⟨e', b⟩, ⟨h1, _⟩, rfl⟩ := he
    exact ⟨e', (List.of_mem_zip h1).1, hx⟩
  have hatom : ∀ x, (∃ p as, .atom p as ∈ fs ∧ B p = none ∧ .var x ∈ as) → ∃ p as, .atom p as ∈ c.pos ∧ B p = none ∧ .var x ∈ as := by
    rintro x ⟨p, as, h1, h2, h3⟩
    exact ⟨p, as, (e3 _).2 ⟨h1, by simp⟩, h2, h3⟩
  have hlocal := local_accepts B c dem (by
    intro x hx
    refine hatom x (hv x ?_)
    simp only [List.mem_append, List.mem_flatMap] at hx ⊢
    rcases hx with ⟨f, hf, hx⟩ | hx
    · exact .inl ⟨f, ((e3 f).1 hf).1, hx⟩
    · exact .inr (hsub x hx)) (fun e he => hc e ((e3 _).1 he).1)
  have hhead : ∀ x ∈ FExpr.usedVarsAll args, x ∈ varNames ((walkFormulas B 0 c.pos).append (walkExprs c.pos.length dem)).vars := by
    intro x hx
    obtain ⟨p, as, h1, h2, h3⟩ := hatom x (hv x (by simp [hx]))
    simp only [varNames, List.mem_dedup, Walked.append, List.map_append, formulas_vars, exprs_vars, List.mem_append, List.mem_flatMap]
    refine .inl ⟨_, h1, ?_⟩
    simp only [Formula.posVars]
    rw [mem_usedVarsAll]
    exact ⟨_, h3, by simp [FExpr.usedVars]⟩
  have hcheck : checkConj B dem (((Formula.conj fs).weight) + 1) c = .ok (varNames ((walkFormulas B 0 c.pos).append (walkExprs c.pos.length dem)).vars) := by
    simp only [checkConj, e2, collectOk, Outcome.bind, List.flatten_nil]
    exact hlocal
  unfold checkRule checkBody
  rw [e1, hdem]
  simp only [collectOk, hcheck, Outcome.bind, meetAll, List.all_nil, List.filter_true]
  rw [if_pos]
  · exact ⟨_, rfl⟩
  · rw [List.all_eq_true]
    intro x hx
    simpa using hhead x hx

end Scallop.Front
