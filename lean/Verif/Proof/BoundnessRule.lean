import Verif.Proof.BoundnessMain

/-!
# Boundness analysis: conjunctions and rules
-/

namespace Scallop.Front

variable {F : Type}

theorem allEvalTo_append {X : Ext F} {σ : Name → Val F} : ∀ (as bs : List (FExpr F)) (vs : List (Val F)), FExpr.AllEvalTo X σ (as ++ bs) vs →
    ∃ xs ys, vs = xs ++ ys ∧ FExpr.AllEvalTo X σ as xs ∧ FExpr.AllEvalTo X σ bs ys
  | [], bs, vs, h => ⟨[], vs, rfl, by simp [FExpr.AllEvalTo], h⟩
  | a :: as, bs, vs, h => by
    simp only [List.cons_append, FExpr.AllEvalTo] at h
    obtain ⟨w, ws, rfl, h1, h2⟩ := h
    obtain ⟨xs, ys, rfl, h3, h4⟩ := allEvalTo_append as bs ws h2
    exact ⟨w :: xs, ys, rfl, ⟨w, xs, rfl, h1, h3⟩, h4⟩

theorem members_finite (S : Set (List (Val F))) (hS : S.Finite) : {v | ∃ vs ∈ S, v ∈ vs}.Finite := by
  have : {v | ∃ vs ∈ S, v ∈ vs} = ⋃ vs ∈ S, {v | v ∈ vs} := by ext v; simp
  rw [this]
  exact hS.biUnion (fun vs _ => List.finite_toSet vs)

section
variable {K : Small} {X : Ext F} {H : Set (Name → Val F)} {get : Loc → Option (FExpr F)} {D : DB F} {G : Aggs F} {V : Name → Prop} {B : Bindings}

theorem child_take (p : Loc) (args : List (FExpr F)) (hg : ∀ j q, get (p ++ j :: q) = FExpr.subAll args j q) (nb : Nat) {j : Nat} (hj : j < args.length)
    (hnb : nb ≤ j) {e : FExpr F} (he : get (p ++ [j]) = some e) : e ∈ args.drop nb := by
  rw [hg, subAll_eq, List.getElem?_eq_getElem hj] at he
  simp only [Option.bind_some, sub_nil, Option.some.injEq] at he
  subst he
  rw [List.mem_iff_getElem]
  exact ⟨j - nb, by simp; omega, by simp [show nb + (j - nb) = j from by omega]⟩

theorem childLocs_length (p : Loc) : ∀ n i, (childLocs p i n).length = n
  | 0, _ => rfl
  | n + 1, i => by simp [childLocs, childLocs_length p n]

theorem childLocs_get (p : Loc) : ∀ (n i j : Nat), j < n → (childLocs p i n)[j]? = some (p ++ [i + j])
  | 0, _, _, h => absurd h (by simp)
  | n + 1, i, 0, _ => by simp [childLocs]
  | n + 1, i, j + 1, h => by
    simp only [childLocs, List.getElem?_cons_succ]
    rw [childLocs_get p n (i + 1) j (by omega), show i + (j + 1) = i + 1 + j from by omega]

theorem mem_childLocs_drop (p : Loc) {n nb : Nat} {l : Loc} (h : l ∈ (childLocs p 0 n).drop nb) : ∃ j, nb ≤ j ∧ j < n ∧ l = p ++ [j] := by
  obtain ⟨k, hk, rfl⟩ := List.mem_iff_getElem.1 h
  simp only [List.length_drop, childLocs_length] at hk
  refine ⟨nb + k, by omega, by omega, ?_⟩
  have := childLocs_get p n 0 (nb + k) (by omega)
  rw [List.getElem_drop]
  rw [List.getElem?_eq_getElem (by rw [childLocs_length]; omega)] at this
  simpa using this

theorem mem_childLocs_take (p : Loc) {n nb j : Nat} (hj : j < nb) (hn : j < n) : p ++ [j] ∈ (childLocs p 0 n).take nb := by
  have := childLocs_get p n 0 j hn
  rw [List.mem_iff_getElem]
  refine ⟨j, by simp [childLocs_length]; omega, ?_⟩
  rw [List.getElem_take]
  rw [List.getElem?_eq_getElem (by rw [childLocs_length]; omega)] at this
  simpa using this

theorem atom_sound (pred : String) (args : List (FExpr F)) (p : Loc) (hg : ∀ j q, get (p ++ j :: q) = FExpr.subAll args j q)
    (ho : (Formula.atom pred args).Ordinary B) (hA : AtomSmall K X H B pred args) :
    ∀ d ∈ atomDeps B p pred args.length, DepSound K X H get d := by
  intro d hd
  simp only [Formula.Ordinary] at ho
  unfold atomDeps at hd
  split at hd
  · rename_i arity nb hB
    obtain ⟨h1, h2, h3⟩ := ho.2 arity nb hB
    rw [if_pos h1, List.mem_singleton] at hd
    subst hd
    simp only [AtomSmall, hB] at hA
    intro s hs
    simp only [Dep.apply]
    split
    · rename_i hall
      rw [List.all_eq_true] at hall
      refine inv_markAll _ hs (fun _ l hl e he ho' => ?_)
      obtain ⟨j, hj1, hj2, rfl⟩ := mem_childLocs_drop p hl
      have hin : ∀ e ∈ args.take nb, K.is (valuesOf X H e) := by
        intro e he
        obtain ⟨i, hi, rfl⟩ := List.mem_iff_getElem.1 he
        simp only [List.length_take] at hi
        refine inv_get hs (hall _ (mem_childLocs_take p (show i < nb by omega) (show i < args.length by omega))) ?_ (h3 _ he)
        rw [hg, subAll_eq, List.getElem?_eq_getElem (show i < args.length by omega)]
        simp [sub_nil]
      exact hA hin e (child_take p args hg nb hj2 hj1 he) ho'
    · exact hs
  · rename_i hB
    simp only [AtomSmall, hB] at hA
    obtain ⟨l, hl, rfl⟩ := List.mem_map.1 hd
    intro s hs
    refine inv_mark hs (fun _ e he ho' => ?_)
    obtain ⟨j, hj, rfl⟩ := mem_child p args.length 0 l hl
    rw [Nat.zero_add] at he
    rw [hg, subAll_eq, List.getElem?_eq_getElem hj] at he
    simp only [Option.bind_some, sub_nil, Option.some.injEq] at he
    exact hA e (he ▸ List.getElem_mem hj) ho'

theorem constraint_sound (e : FExpr F) (p : Loc) (hg : ∀ q, get (p ++ q) = e.sub q) (ho : e.Ordinary)
    (hR : ∀ a b, e = .bin .eq a b → RevEq K X H a b) : ∀ d ∈ constraintDeps p e, DepSound K X H get d := by
  intro d hd
  unfold constraintDeps at hd
  split at hd
  · rename_i a b
    simp only [FExpr.Ordinary] at ho
    rw [List.mem_singleton] at hd
    subst hd
    have e1 : get (p ++ [0]) = some a := by rw [hg]; simp [FExpr.sub, sub_nil]
    have e2 : get (p ++ [1]) = some b := by rw [hg]; simp [FExpr.sub, sub_nil]
    obtain ⟨k1, k2⟩ := hR a b rfl
    intro s hs
    simp only [Dep.apply]
    split
    · rename_i h
      simp only [Bool.and_eq_true] at h
      refine inv_mark hs (fun _ e he _ => ?_)
      rw [e2] at he
      cases he
      exact k1 (inv_get hs h.1 e1 ho.1)
    · split
      · rename_i h
        simp only [Bool.and_eq_true] at h
        refine inv_mark hs (fun _ e he _ => ?_)
        rw [e1] at he
        cases he
        exact k2 (inv_get hs h.2 e2 ho.2)
      · exact hs
  · simp at hd

/-- What is needed of a formula of a conjunction. -/
def FormSmall (K : Small) (X : Ext F) (H : Set (Name → Val F)) (B : Bindings) : Formula F → Prop
  | .atom pred args => AtomSmall K X H B pred args ∧ ∀ e ∈ args, e.Ordinary → Rev K X H e
  | .constraint e => Rev K X H e ∧ ∀ a b, e = .bin .eq a b → RevEq K X H a b
  | _ => True

/-- The expression at a path in a formula of a conjunction. -/
def Formula.site : Formula F → Loc → Option (FExpr F)
  | .atom _ args, j :: q => FExpr.subAll args j q
  | .constraint e, q => e.sub q
  | _, _ => none

theorem formula_sound (f : Formula F) (p : Loc) (hg : ∀ q, get (p ++ q) = f.site q)
    (ho : f.Ordinary B) (hh : ∀ σ ∈ H, f.Holds X D G V σ) (hF : FormSmall K X H B f) :
    (∀ d ∈ (f.walkDeps B p).deps, DepSound K X H get d) ∧ ∀ v ∈ (f.walkDeps B p).vars, get v.2 = some (.var v.1) := by
  cases f with
  | atom pred args =>
    have hg' : ∀ j q, get (p ++ j :: q) = FExpr.subAll args j q := fun j q => by rw [hg]; rfl
    have r1 := walkAll_sound (K := K) (get := get) args p 0 (fun j q => by rw [Nat.zero_add]; exact hg' j q) (by
      intro e he
      simp only [Formula.Ordinary] at ho
      rcases ho.1 e he with h | h
      · exact .inl h
      · refine .inr ⟨h, fun σ hσ => ?_, hF.2 e he h⟩
        have := hh σ hσ
        simp only [Formula.Holds] at this
        obtain ⟨vs, h1, _⟩ := this
        obtain ⟨i, hi, rfl⟩ := List.mem_iff_getElem.1 he
        obtain ⟨w, _, hw⟩ := allEvalTo_get args vs h1 i _ (List.getElem?_eq_getElem hi)
        exact ⟨w, hw⟩)
    have r2 := atom_sound pred args p hg' ho hF.1
    simp only [Formula.walkDeps]
    refine ⟨fun d hd => ?_, fun v hv => ?_⟩
    · rcases mem_append_deps.1 hd with hd | hd
      · exact r2 d hd
      · exact r1.1 d hd
    · rcases mem_append_vars.1 hv with hv | hv
      · simp at hv
      · exact r1.2 v hv
  | constraint e =>
    simp only [Formula.Ordinary] at ho
    simp only [Formula.Holds] at hh
    have hg' : ∀ q, get (p ++ q) = e.sub q := fun q => by rw [hg]; cases q <;> rfl
    have r1 := walk_sound (K := K) (get := get) e p hg' (.inr ⟨ho, fun σ hσ => ⟨_, hh σ hσ⟩, hF.1⟩)
    have r2 := constraint_sound e p hg' ho hF.2
    simp only [Formula.walkDeps]
    refine ⟨fun d hd => ?_, fun v hv => ?_⟩
    · rcases mem_append_deps.1 hd with hd | hd
      · exact r2 d hd
      · exact r1.1 d hd
    · rcases mem_append_vars.1 hv with hv | hv
      · simp at hv
      · exact r1.2 v hv
  | _ => simp [Formula.walkDeps]

theorem formulas_sound : ∀ (fs : List (Formula F)) (i : Nat), (∀ j f q, fs[j]? = some f → get ((i + j) :: q) = f.site q) →
    (∀ f ∈ fs, f.Ordinary B) → (∀ f ∈ fs, ∀ σ ∈ H, f.Holds X D G V σ) → (∀ f ∈ fs, FormSmall K X H B f) →
    (∀ d ∈ (walkFormulas B i fs).deps, DepSound K X H get d) ∧ ∀ v ∈ (walkFormulas B i fs).vars, get v.2 = some (.var v.1)
  | [], i, _, _, _, _ => by simp [walkFormulas]
  | f :: fs, i, hg, ho, hh, hF => by
    have r1 := formula_sound (get := get) (D := D) (G := G) (V := V) f [i] (fun q => by simpa using hg 0 f q (by simp)) (ho f (by simp)) (hh f (by simp)) (hF f (by simp))
    have r2 := formulas_sound fs (i + 1) (fun j f' q h => by
      rw [show i + 1 + j = i + (j + 1) from by omega]
      exact hg (j + 1) f' q (by simpa using h)) (fun f' h => ho f' (by simp [h])) (fun f' h => hh f' (by simp [h])) (fun f' h => hF f' (by simp [h]))
    simp only [walkFormulas]
    refine ⟨fun d hd => ?_, fun v hv => ?_⟩
    · rcases mem_append_deps.1 hd with hd | hd
      · exact r1.1 d hd
      · exact r2.1 d hd
    · rcases mem_append_vars.1 hv with hv | hv
      · exact r1.2 v hv
      · exact r2.2 v hv

theorem exprs_sound : ∀ (es : List (FExpr F)) (i : Nat), (∀ j e q, es[j]? = some e → get ((i + j) :: q) = e.sub q) →
    (∀ e ∈ es, Node K X H e) →
    (∀ d ∈ (walkExprs i es).deps, DepSound K X H get d) ∧ ∀ v ∈ (walkExprs i es).vars, get v.2 = some (.var v.1)
  | [], i, _, _ => by simp [walkExprs]
  | f :: fs, i, hg, ho => by
    have r1 := walk_sound (K := K) (get := get) f [i] (fun q => by simpa using hg 0 f q (by simp)) (ho f (by simp))
    have r2 := exprs_sound fs (i + 1) (fun j f' q h => by
      rw [show i + 1 + j = i + (j + 1) from by omega]
      exact hg (j + 1) f' q (by simpa using h)) (fun f' h => ho f' (by simp [h]))
    simp only [walkExprs]
    refine ⟨fun d hd => ?_, fun v hv => ?_⟩
    · rcases mem_append_deps.1 hd with hd | hd
      · exact r1.1 d hd
      · exact r2.1 d hd
    · rcases mem_append_vars.1 hv with hv | hv
      · exact r1.2 v hv
      · exact r2.2 v hv

end

/-! ## The loop -/

section
variable {K : Small} {X : Ext F} {H : Set (Name → Val F)} {get : Loc → Option (FExpr F)}

theorem inv_deps : ∀ (ds : List Dep) (s : List Loc), (∀ d ∈ ds, DepSound K X H get d) → Inv K X H get s → Inv K X H get (ds.foldl Dep.apply s)
  | [], s, _, hs => hs
  | d :: ds, s, hd, hs => inv_deps ds _ (fun d' h => hd d' (by simp [h])) (hd d (by simp) s hs)

theorem inv_vars (vars : List (Name × Loc)) (hv : ∀ v ∈ vars, get v.2 = some (.var v.1)) :
    ∀ (xs : List Name) (s : List Loc), Inv K X H get s →
      Inv K X H get (xs.foldl (fun s x => markAll s (locsOf vars x) ((locsOf vars x).any s.contains)) s)
  | [], s, hs => hs
  | x :: xs, s, hs => by
    rw [List.foldl_cons]
    refine inv_vars vars hv xs _ (inv_markAll _ hs (fun hb l hl e he _ => ?_))
    rw [List.any_eq_true] at hb
    obtain ⟨l', hl', hb⟩ := hb
    have key : ∀ l ∈ locsOf vars x, get l = some (.var x) := by
      intro l hl
      simp only [locsOf, List.mem_map, List.mem_filter, decide_eq_true_eq] at hl
      obtain ⟨v, ⟨h1, h2⟩, rfl⟩ := hl
      rw [← h2]
      exact hv v h1
    rw [key l hl] at he
    cases he
    exact inv_get hs hb (key l' hl') (by simp [FExpr.Ordinary])

theorem inv_loop (w : Walked) (hd : ∀ d ∈ w.deps, DepSound K X H get d) (hv : ∀ v ∈ w.vars, get v.2 = some (.var v.1)) :
    ∀ (n : Nat) (s s' : List Loc), Inv K X H get s → boundLoop w n s = some s' → Inv K X H get s'
  | 0, s, s', _, h => by simp [boundLoop] at h
  | n + 1, s, s', hs, h => by
    have h1 : Inv K X H get (boundStep w s) := inv_vars w.vars hv _ _ (inv_deps w.deps s hd hs)
    simp only [boundLoop] at h
    split at h
    · simp only [Option.some.injEq] at h
      exact h ▸ h1
    · exact inv_loop w hd hv n _ s' h1 h

theorem compute_sound (w : Walked) (hd : ∀ d ∈ w.deps, DepSound K X H get d) (hv : ∀ v ∈ w.vars, get v.2 = some (.var v.1)) (known : List Name)
    (exprs : List Loc) (hk : ∀ x ∈ known, K.is (valuesOf X H (.var x))) (he : Inv K X H get exprs) (bs : List Name)
    (h : w.compute known exprs = .ok bs) : ∀ x ∈ bs, K.is (valuesOf X H (.var x)) := by
  unfold Walked.compute at h
  split at h
  · cases h
  · rename_i s hs
    have hi : Inv K X H get s := by
      refine inv_loop w hd hv _ _ _ (inv_markAll _ he (fun _ l hl e hg _ => ?_)) hs
      simp only [List.mem_map, List.mem_filter] at hl
      obtain ⟨v, ⟨h1, h2⟩, rfl⟩ := hl
      rw [hv v h1] at hg
      cases hg
      exact hk _ (by simpa using h2)
    split at h
    · rename_i hc
      simp only [Bool.and_eq_true, List.all_eq_true] at hc
      cases h
      intro x hx
      rcases List.mem_append.1 hx with hx | hx
      · exact hk x hx
      · have hx' := hx
        simp only [varNames, List.mem_dedup, List.mem_map] at hx
        obtain ⟨v, h1, rfl⟩ := hx
        have hl : v.2 ∈ locsOf w.vars v.1 := by
          simp only [locsOf, List.mem_map, List.mem_filter, decide_eq_true_eq]
          exact ⟨v, ⟨h1, rfl⟩, rfl⟩
        exact inv_get hi (hc.1 _ hx' _ hl) (hv v h1) (by simp [FExpr.Ordinary])
    · cases h

end

/-! ## Conjunctions and rules -/

section
variable {K : Small} {X : Ext F} {H : Set (Name → Val F)} {D : DB F} {G : Aggs F} {V : Name → Prop} {B : Bindings}

/-- The expression at a place of a conjunction, followed by the expressions that are known to be bound. -/
def siteAt (pos : List (Formula F)) (dem : List (FExpr F)) : Loc → Option (FExpr F)
  | [] => none
  | i :: q => if i < pos.length then pos[i]?.bind (fun f => f.site q) else dem[i - pos.length]?.bind (fun e => e.sub q)

theorem local_sound (c : ConjCtx F) (dem : List (FExpr F))
    (known : List Name) (ho : ∀ f ∈ c.pos, f.Ordinary B) (hh : ∀ f ∈ c.pos, ∀ σ ∈ H, f.Holds X D G V σ)
    (hF : ∀ f ∈ c.pos, FormSmall K X H B f)
    (hdem : ∀ e ∈ dem, Node K X H e ∧ (e.Ordinary → K.is (valuesOf X H e))) (hk : ∀ x ∈ known, K.is (valuesOf X H (.var x))) (bs : List Name)
    (h : c.local B dem known = .ok bs) : ∀ x ∈ bs, K.is (valuesOf X H (.var x)) := by
  have r1 := formulas_sound (K := K) (get := siteAt c.pos dem) (D := D) (G := G) (V := V) c.pos 0 (fun j f q hj => by
    have : j < c.pos.length := by
      by_contra hc
      rw [List.getElem?_eq_none (by omega)] at hj
      cases hj
    simp [siteAt, this, Nat.zero_add]
    rw [List.getElem?_eq_getElem this] at hj
    cases hj
    rfl) ho hh hF
  have r2 := exprs_sound (K := K) (get := siteAt c.pos dem) dem c.pos.length (fun j e q hj => by
    simp [siteAt, hj]) (fun e he => (hdem e he).1)
  refine compute_sound (get := siteAt c.pos dem) _ ?_ ?_ known _ hk ?_ bs h
  · intro d hd
    rcases mem_append_deps.1 hd with hd | hd
    · exact r1.1 d hd
    · exact r2.1 d hd
  · intro d hd
    rcases mem_append_vars.1 hd with hd | hd
    · exact r1.2 d hd
    · exact r2.2 d hd
  · intro l hl e he hoe
    obtain ⟨i, hi, rfl⟩ := List.mem_map.1 hl
    rw [List.mem_range] at hi
    simp [siteAt, List.getElem?_eq_getElem hi, sub_nil] at he
    subst he
    exact (hdem _ (List.getElem_mem hi)).2 hoe

theorem collectOk_mem {α β : Type} {f : α → Outcome β} : ∀ (as : List α) (bs : List β), collectOk f as = .ok bs →
    (∀ a ∈ as, ∃ b ∈ bs, f a = .ok b)
  | [], bs, h => by simp
  | a :: as, bs, h => by
    simp only [collectOk] at h
    obtain ⟨b, h1, h⟩ := bind_ok h
    obtain ⟨bs', h2, h⟩ := bind_ok h
    cases h
    intro a' ha
    rcases List.mem_cons.1 ha with rfl | ha
    · exact ⟨b, by simp, h1⟩
    · obtain ⟨b', h3, h4⟩ := collectOk_mem as bs' h2 a' ha
      exact ⟨b', by simp [h3], h4⟩

theorem mem_meetAll : ∀ (ss : List (List Name)) (x : Name), x ∈ meetAll ss → ∀ s ∈ ss, x ∈ s
  | [], x, h, s, hs => by simp at hs
  | t :: ss, x, h, s, hs => by
    simp only [meetAll, List.mem_filter, List.all_eq_true] at h
    rcases List.mem_cons.1 hs with rfl | hs
    · exact h.1
    · simpa using h.2 s hs

theorem allOrdinary_mem : ∀ (fs : List (Formula F)), Formula.Ordinary.allOrdinary B fs → ∀ f ∈ fs, f.Ordinary B
  | [], _, f, hf => by simp at hf
  | f :: fs, h, f', hf => by
    simp only [Formula.Ordinary.allOrdinary] at h
    rcases List.mem_cons.1 hf with rfl | hf
    · exact h.1
    · exact allOrdinary_mem fs h.2 f' hf

/-- The check of a conjunction without aggregations. -/
theorem checkConj_sound (c : ConjCtx F) (dem : List (FExpr F)) (n : Nat)
    (ho : ∀ f ∈ c.pos ++ c.neg ++ c.agg, f.Ordinary B) (hh : ∀ σ ∈ H, c.Holds X D G V σ)
    (hF : ∀ f ∈ c.pos, FormSmall K X H B f)
    (hdem : ∀ e ∈ dem, Node K X H e ∧ (e.Ordinary → K.is (valuesOf X H e))) (bs : List Name)
    (h : checkConj B dem n c = .ok bs) : ∀ x ∈ bs, K.is (valuesOf X H (.var x)) := by
  cases n with
  | zero => simp [checkConj] at h
  | succ n =>
    simp only [checkConj] at h
    obtain ⟨ks, h1, h2⟩ := bind_ok h
    have hagg : c.agg = [] := by
      cases ha : c.agg with
      | nil => rfl
      | cons a as =>
        exfalso
        have hoa := ho a (by simp [ha])
        obtain ⟨b, _, hb⟩ := collectOk_mem _ _ h1 a (by simp [ha])
        cases a <;> simp [checkAgg, Formula.Ordinary] at hb hoa
    rw [hagg] at h1
    simp only [collectOk] at h1
    cases h1
    exact local_sound (D := D) (G := G) (V := V) c dem [] (fun f hf => ho f (by simp [hf])) (fun f hf σ hσ => hh σ hσ f (by simp [hf])) hF hdem
      (by simp) bs (by simpa using h2)

end

/-! ## The loop ends -/

/-- Marking only adds places. -/
theorem mark_suffix (s : List Loc) (l : Loc) (b : Bool) : ∃ t, mark s l b = t ++ s := by
  unfold mark
  split
  · exact ⟨[l], rfl⟩
  · exact ⟨[], rfl⟩

/-- `s` extends `s₀` by distinct places of `T`. -/
def Grown (T s₀ s : List Loc) : Prop := ∃ t, s = t ++ s₀ ∧ t.Nodup ∧ ∀ l ∈ t, l ∈ T

/-- `s'` is `s`, possibly extended. -/
def Ext' (s s' : List Loc) : Prop := ∃ t, s' = t ++ s

theorem ext_refl (s : List Loc) : Ext' s s := ⟨[], rfl⟩
theorem ext_trans {a b c : List Loc} (h1 : Ext' a b) (h2 : Ext' b c) : Ext' a c := by
  obtain ⟨t, rfl⟩ := h1
  obtain ⟨u, rfl⟩ := h2
  exact ⟨u ++ t, by simp⟩

theorem grown_mark {T s₀ s : List Loc} (h : Grown T s₀ s) {l : Loc} (hl : l ∈ T) (b : Bool) : Grown T s₀ (mark s l b) := by
  unfold mark
  split
  · rename_i hb
    simp only [Bool.and_eq_true, Bool.not_eq_true'] at hb
    obtain ⟨t, rfl, h1, h2⟩ := h
    refine ⟨l :: t, rfl, List.nodup_cons.2 ⟨fun hm => ?_, h1⟩, fun l' hl' => ?_⟩
    · have := hb.2
      simp [hm] at this
    · rcases List.mem_cons.1 hl' with rfl | hl'
      · exact hl
      · exact h2 l' hl'
  · exact h

theorem grown_markAll {T s₀ : List Loc} {b : Bool} : ∀ (ls : List Loc) {s : List Loc}, Grown T s₀ s → (∀ l ∈ ls, l ∈ T) → Grown T s₀ (markAll s ls b)
  | [], s, h, _ => h
  | l :: ls, s, h, hl => by
    simp only [markAll, List.foldl_cons]
    exact grown_markAll ls (grown_mark h (hl l (by simp)) b) (fun l' h' => hl l' (by simp [h']))

theorem ext_markAll {b : Bool} : ∀ (ls : List Loc) (s : List Loc), Ext' s (markAll s ls b)
  | [], s => ext_refl s
  | l :: ls, s => by
    simp only [markAll, List.foldl_cons]
    exact ext_trans (mark_suffix s l b) (ext_markAll ls _)

theorem ext_apply (d : Dep) (s : List Loc) : Ext' s (d.apply s) := by
  cases d <;> simp only [Dep.apply] <;> (repeat' split) <;> first | exact mark_suffix _ _ _ | exact ext_refl _ | exact ext_markAll _ _

theorem grown_apply {T s₀ s : List Loc} (h : Grown T s₀ s) (d : Dep) (hd : ∀ l ∈ d.targets, l ∈ T) : Grown T s₀ (d.apply s) := by
  cases d <;> simp only [Dep.apply] <;> simp only [Dep.targets] at hd <;> (repeat' split) <;>
    first | exact h | exact grown_mark h (hd _ (by simp)) _ | exact grown_markAll _ h hd

theorem grown_deps {T s₀ : List Loc} : ∀ (ds : List Dep) (s : List Loc), (∀ d ∈ ds, ∀ l ∈ d.targets, l ∈ T) → Grown T s₀ s →
    Grown T s₀ (ds.foldl Dep.apply s) ∧ Ext' s (ds.foldl Dep.apply s)
  | [], s, _, h => ⟨h, ext_refl s⟩
  | d :: ds, s, hd, h => by
    have := grown_deps ds (d.apply s) (fun d' h' => hd d' (by simp [h'])) (grown_apply h d (hd d (by simp)))
    exact ⟨this.1, ext_trans (ext_apply d s) this.2⟩

theorem grown_vars {T s₀ : List Loc} (vars : List (Name × Loc)) (hv : ∀ v ∈ vars, v.2 ∈ T) : ∀ (xs : List Name) (s : List Loc), Grown T s₀ s →
    Grown T s₀ (xs.foldl (fun s x => markAll s (locsOf vars x) ((locsOf vars x).any s.contains)) s) ∧
      Ext' s (xs.foldl (fun s x => markAll s (locsOf vars x) ((locsOf vars x).any s.contains)) s)
  | [], s, h => ⟨h, ext_refl s⟩
  | x :: xs, s, h => by
    rw [List.foldl_cons]
    have := grown_vars vars hv xs _ (grown_markAll (b := (locsOf vars x).any s.contains) (locsOf vars x) h (fun l hl => by
      simp only [locsOf, List.mem_map, List.mem_filter] at hl
      obtain ⟨v, ⟨h1, _⟩, rfl⟩ := hl
      exact hv v h1))
    exact ⟨this.1, ext_trans (ext_markAll _ _) this.2⟩

/-- The places the loop can mark. -/
def Walked.marks (w : Walked) : List Loc := w.deps.flatMap Dep.targets ++ w.vars.map Prod.snd

theorem grown_step (w : Walked) {s₀ s : List Loc} (h : Grown w.marks s₀ s) : Grown w.marks s₀ (boundStep w s) ∧ Ext' s (boundStep w s) := by
  have h1 := grown_deps (T := w.marks) (s₀ := s₀) w.deps s (fun d hd l hl => by
    simp only [Walked.marks, List.mem_append, List.mem_flatMap]
    exact .inl ⟨d, hd, hl⟩) h
  have h2 := grown_vars (T := w.marks) (s₀ := s₀) w.vars (fun v hv => by
    simp only [Walked.marks, List.mem_append, List.mem_map]
    exact .inr ⟨v, hv, rfl⟩) (varNames w.vars) _ h1.1
  exact ⟨h2.1, ext_trans h1.2 h2.2⟩

theorem grown_length {T s₀ s : List Loc} (h : Grown T s₀ s) : s.length ≤ T.length + s₀.length := by
  obtain ⟨t, rfl, h1, h2⟩ := h
  have := (List.subperm_of_subset h1 h2).length_le
  simp; omega

theorem loop_ends (w : Walked) {s₀ : List Loc} : ∀ (n : Nat) (s : List Loc), Grown w.marks s₀ s → w.marks.length + s₀.length < s.length + n →
    ∃ s', boundLoop w n s = some s' ∧ boundStep w s' = s' ∧ Ext' s s'
  | 0, s, h, hn => by
    have := grown_length h
    omega
  | n + 1, s, h, hn => by
    obtain ⟨h1, h2⟩ := grown_step w h
    simp only [boundLoop]
    split
    · rename_i he
      obtain ⟨t, ht⟩ := h2
      rw [ht] at he
      simp only [List.length_append] at he
      have : t = [] := List.length_eq_zero_iff.1 (by omega)
      subst this
      simp only [List.nil_append] at ht
      exact ⟨s, by rw [ht], ht, ext_refl s⟩
    · rename_i he
      have hlt : s.length < (boundStep w s).length := by
        obtain ⟨t, ht⟩ := h2
        rw [ht] at he ⊢
        simp only [List.length_append] at he ⊢
        omega
      obtain ⟨s', e1, e2, e3⟩ := loop_ends w n (boundStep w s) h1 (by omega)
      exact ⟨s', e1, e2, ext_trans h2 e3⟩

/-- The number of rounds suffices, and what is found is closed. -/
theorem bound_terminates (w : Walked) (s : List Loc) : ∃ s', boundLoop w w.rounds s = some s' ∧ boundStep w s' = s' ∧ Ext' s s' :=
  loop_ends w (s₀ := s) w.rounds s ⟨[], rfl, by simp, by simp⟩ (by simp [Walked.rounds, Walked.marks]; omega)

end Scallop.Front
