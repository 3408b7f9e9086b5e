import Mathlib.Data.Set.Finite.Powerset
import Verif.Proof.BoundnessFinite
import Verif.Proof.BoundnessAccept
import Verif.Proof.Front5

/-!
# Boundness analysis: rules with aggregations
-/

namespace Scallop.Front

variable {F : Type} {X : Ext F} {H : Set (Name → Val F)} {D : DB F} {G : Aggs F} {V : Name → Prop} {B : Bindings}

/-! ## Formulas without aggregations -/

mutual
/-- Shared variables matter only for aggregations. -/
theorem ordinary_shared {V' : Name → Prop} {σ : Name → Val F} : ∀ (f : Formula F), f.Ordinary B → (f.Holds X D G V σ ↔ f.Holds X D G V' σ)
  | .atom _ _, _ => by simp only [Formula.Holds]
  | .neg _ _, _ => by simp only [Formula.Holds]
  | .constraint _, _ => by simp only [Formula.Holds]
  | .disj fs, h => by simpa only [Formula.Holds] using (ordinariesShared fs (by simpa only [Formula.Ordinary] using h)).2
  | .conj fs, h => by simpa only [Formula.Holds] using (ordinariesShared fs (by simpa only [Formula.Ordinary] using h)).1
  | .case .., h => by simp [Formula.Ordinary] at h
  | .implies .., h => by simp [Formula.Ordinary] at h
  | .reduce .., h => by simp [Formula.Ordinary] at h
  | .quant .., h => by simp [Formula.Ordinary] at h
  | .range .., h => by simp [Formula.Ordinary] at h
/-- The same for a list. -/
theorem ordinariesShared {V' : Name → Prop} {σ : Name → Val F} : ∀ (fs : List (Formula F)), Formula.Ordinary.allOrdinary B fs →
    (Formula.Holds.allHold X D G V σ fs ↔ Formula.Holds.allHold X D G V' σ fs) ∧
    (Formula.Holds.anyHolds X D G V σ fs ↔ Formula.Holds.anyHolds X D G V' σ fs)
  | [], _ => by simp only [Formula.Holds.allHold, Formula.Holds.anyHolds, and_self]
  | f :: fs, h => by
    simp only [Formula.Ordinary.allOrdinary] at h
    have h1 := ordinary_shared (V' := V') (σ := σ) f h.1
    have h2 := ordinariesShared (V' := V') (σ := σ) fs h.2
    simp only [Formula.Holds.allHold, Formula.Holds.anyHolds, h1, h2, and_self]
end

theorem holds_ordinary {P : Name → Prop} {σ τ : Name → Val F} (f : Formula F) (ho : f.Ordinary B) (hn : f.NamesIn P) (h : ∀ x, P x → σ x = τ x) :
    f.Holds X D G V σ ↔ f.Holds X D G V τ := by
  rw [ordinary_shared (V := V) (V' := P) (σ := σ) f ho, ordinary_shared (V := V) (V' := P) (σ := τ) f ho]
  exact holds_congr h f hn P (fun x hx => hx)

theorem allNamesIn_mem {P : Name → Prop} : ∀ (fs : List (Formula F)), Formula.NamesIn.allNamesIn P fs → ∀ f ∈ fs, f.NamesIn P
  | [], _, f, hf => by simp at hf
  | g :: fs, h, f, hf => by
    simp only [Formula.NamesIn.allNamesIn] at h
    rcases List.mem_cons.1 hf with rfl | hf
    · exact h.1
    · exact allNamesIn_mem fs h.2 f hf

mutual
theorem usedVars_in {P : Name → Prop} : ∀ (e : FExpr F), e.NamesIn P → ∀ x ∈ e.usedVars, P x
  | .const _, _, x, hx => by simp [FExpr.usedVars] at hx
  | .wild, _, x, hx => by simp [FExpr.usedVars] at hx
  | .var y, h, x, hx => by
    simp only [FExpr.usedVars, List.mem_singleton] at hx
    subst hx
    exact h
  | .bin _ a b, h, x, hx => by
    simp only [FExpr.NamesIn, FExpr.usedVars, List.mem_append] at h hx
    exact hx.elim (usedVars_in a h.1 x) (usedVars_in b h.2 x)
  | .un _ a, h, x, hx => by
    simp only [FExpr.NamesIn, FExpr.usedVars] at h hx
    exact usedVars_in a h x hx
  | .ite c t e, h, x, hx => by
    simp only [FExpr.NamesIn, FExpr.usedVars, List.mem_append] at h hx
    rcases hx with hx | hx | hx
    · exact usedVars_in c h.1 x hx
    · exact usedVars_in t h.2.1 x hx
    · exact usedVars_in e h.2.2 x hx
  | .call _ args, h, x, hx => by
    simp only [FExpr.NamesIn, FExpr.usedVars] at h hx
    exact usedVarsAll_in args h x hx
  | .new _ args, h, x, hx => by
    simp only [FExpr.NamesIn, FExpr.usedVars] at h hx
    exact usedVarsAll_in args h x hx
theorem usedVarsAll_in {P : Name → Prop} : ∀ (es : List (FExpr F)), FExpr.AllNamesIn P es → ∀ x ∈ FExpr.usedVarsAll es, P x
  | [], _, x, hx => by simp [FExpr.usedVarsAll] at hx
  | e :: es, h, x, hx => by
    simp only [FExpr.AllNamesIn, FExpr.usedVarsAll, List.mem_append] at h hx
    exact hx.elim (usedVars_in e h.1 x) (usedVarsAll_in es h.2 x)
end

theorem posVars_in {P : Name → Prop} (f : Formula F) (h : f.NamesIn P) : ∀ x ∈ f.posVars, P x := by
  cases f with
  | atom p args => exact usedVarsAll_in args h
  | constraint e => exact usedVars_in e h
  | _ => simp [Formula.posVars]

/-- The variables a conjunction binds by itself. -/
theorem compute_names {w : Walked} {known : List Name} {exprs : List Loc} {bs : List Name} (h : w.compute known exprs = .ok bs) :
    bs = known ++ varNames w.vars := by
  unfold Walked.compute at h
  split at h
  · cases h
  · split at h
    · cases h
      rfl
    · cases h

theorem local_names {c : ConjCtx F} {known bs : List Name} (h : c.local B [] known = .ok bs) {x : Name} (hx : x ∈ bs) :
    x ∈ known ∨ ∃ f ∈ c.pos, x ∈ f.posVars := by
  rw [compute_names h, List.mem_append] at hx
  refine hx.imp id (fun hx => ?_)
  simp only [varNames, List.mem_dedup, List.mem_map] at hx
  obtain ⟨v, hv, rfl⟩ := hx
  have hv' : v.1 ∈ (walkFormulas B 0 c.pos).vars.map Prod.fst := by
    rcases mem_append_vars.1 hv with hv | hv
    · exact List.mem_map.2 ⟨v, hv, rfl⟩
    · simp [walkExprs] at hv
  rw [formulas_vars, List.mem_flatMap] at hv'
  exact hv'

/-- Conjunctions without aggregations are checked by themselves. -/
theorem checkConj_ordinary {c : ConjCtx F} {dem : List (FExpr F)} {n : Nat} (ho : ∀ f ∈ c.pos ++ c.neg ++ c.agg, f.Ordinary B) {bs : List Name}
    (h : checkConj B dem n c = .ok bs) : c.local B dem [] = .ok bs := by
  cases n with
  | zero => simp [checkConj] at h
  | succ n =>
    simp only [checkConj] at h
    obtain ⟨ks, h1, h2⟩ := bind_ok h
    have hagg : c.agg = [] := by
      cases ha : c.agg with
      | nil => rfl
      | cons a as =>
        exfalso
        have hoa := ho a (by simp [ha])
        obtain ⟨b, _, hb⟩ := collectOk_mem _ _ h1 a (by simp [ha])
        cases a <;> simp [checkAgg, Formula.Ordinary] at hb hoa
    rw [hagg] at h1
    simp only [collectOk] at h1
    cases h1
    simpa using h2

theorem fromFormula_ordinary (f : Formula F) (ho : f.Ordinary B) (cs : List (ConjCtx F)) (hcs : fromFormula f = some cs) :
    ∀ c ∈ cs, ∀ l ∈ c.pos ++ c.neg ++ c.agg, l.Ordinary B :=
  fromFormula_mem (Q := fun f => f.Ordinary B) (fun fs hf f hm => allOrdinary_mem fs (by simpa [Formula.Ordinary] using hf) f hm)
    (fun fs hf f hm => allOrdinary_mem fs (by simpa [Formula.Ordinary] using hf) f hm) f ho cs hcs

theorem fromFormula_names {P : Name → Prop} (f : Formula F) (ho : f.NamesIn P) (cs : List (ConjCtx F)) (hcs : fromFormula f = some cs) :
    ∀ c ∈ cs, ∀ l ∈ c.pos ++ c.neg ++ c.agg, l.NamesIn P :=
  fromFormula_mem (Q := fun f => f.NamesIn P) (fun fs hf f hm => allNamesIn_mem fs (by simpa [Formula.NamesIn] using hf) f hm)
    (fun fs hf f hm => allNamesIn_mem fs (by simpa [Formula.NamesIn] using hf) f hm) f ho cs hcs

/-- What is bound occurs. -/
theorem checkBody_names {n : Nat} {head : List Name} {f : Formula F} (ho : f.Ordinary B) {bs : List Name}
    (h : checkBody (checkConj B [] n) head f = .ok bs) {x : Name} (hx : x ∈ bs) : ¬ f.NamesIn (· ≠ x) := by
  intro hn
  unfold checkBody at h
  cases hcs : fromFormula f with
  | none => simp [hcs] at h
  | some cs =>
    rw [hcs] at h
    simp only at h
    obtain ⟨ss, h1, h2⟩ := bind_ok h
    split at h2
    · cases h2
      cases cs with
      | nil =>
        simp only [collectOk] at h1
        cases h1
        simp [meetAll] at hx
      | cons c cs =>
        obtain ⟨b, hb1, hb2⟩ := collectOk_mem _ _ h1 c (by simp)
        have hxb := mem_meetAll ss x hx b hb1
        rcases local_names (checkConj_ordinary (fromFormula_ordinary f ho _ hcs c (by simp)) hb2) hxb with h | ⟨f', hf', hx'⟩
        · simp at h
        · exact posVars_in f' (fromFormula_names f hn _ hcs c (by simp) f' (by simp [hf'])) x hx' rfl
    · cases h2

theorem checkBody_head {conj : ConjCtx F → Outcome (List Name)} {head : List Name} {f : Formula F} {bs : List Name}
    (h : checkBody conj head f = .ok bs) : ∀ x ∈ head, x ∈ bs := by
  unfold checkBody at h
  split at h
  · cases h
  · obtain ⟨ss, h1, h2⟩ := bind_ok h
    split at h2
    · rename_i hall
      cases h2
      rw [List.all_eq_true] at hall
      exact fun x hx => by simpa using hall x hx
    · cases h2

section
variable [Finite F]

/-- The variables of an accepted formula have finitely many values. -/
theorem checkBody_sound (hX : X.Proper) (hD : FiniteDB B D) {n : Nat} {head : List Name} {f : Formula F} (hne : f.NonEmpty) (ho : f.Ordinary B)
    {bs : List Name} (h : checkBody (checkConj B [] n) head f = .ok bs) : ∀ x ∈ bs, (valuesOf X (solutions X D G V f) (.var x)).Finite := by
  intro x hx
  unfold checkBody at h
  cases hcs : fromFormula f with
  | none => simp [hcs] at h
  | some cs =>
    rw [hcs] at h
    simp only at h
    obtain ⟨ss, h1, h2⟩ := bind_ok h
    split at h2
    · cases h2
      have hord := fromFormula_ordinary f ho cs hcs
      have key : ∀ c ∈ cs, (valuesOf X {σ | (∀ x, (σ x).Proper) ∧ c.Holds X D G V σ} (.var x)).Finite := by
        intro c hc
        obtain ⟨b, hb1, hb2⟩ := collectOk_mem _ _ h1 c hc
        refine checkConj_sound (K := .fin) (D := D) (G := G) (V := V) c [] n (hord c hc) (fun σ hσ => hσ.2) (fun f hf => ?_) (by simp) b hb2 x
          (mem_meetAll ss x hx b hb1)
        exact form_fin hX (fun σ hσ => hσ.1) hD f (hord c hc f (by simp [hf])) (fun σ hσ => hσ.2 f (by simp [hf]))
      refine ((List.finite_toSet cs).biUnion key).subset ?_
      rintro v ⟨σ, ⟨p1, p2⟩, hv⟩
      obtain ⟨c, hc, p2⟩ := (fromFormula_holds f hne cs hcs).1 p2
      exact Set.mem_biUnion hc ⟨σ, ⟨p1, p2⟩, hv⟩
    · cases h2

omit [Finite F] in
theorem allEvalTo_vars (σ : Name → Val F) : ∀ xs : List Name, FExpr.AllEvalTo X σ (xs.map .var) (xs.map σ)
  | [] => by simp [FExpr.AllEvalTo]
  | x :: xs => ⟨σ x, xs.map σ, rfl, rfl, allEvalTo_vars σ xs⟩

omit [Finite F] in
/-- Finitely many values for each variable make finitely many tuples. -/
theorem tuples_finite (xs : List Name) (h : ∀ x ∈ xs, (valuesOf X H (.var x)).Finite) : {vs | ∃ σ ∈ H, xs.map σ = vs}.Finite := by
  have := values_all (K := .fin) (X := X) (H := H) (xs.map .var) (by
    intro e he
    obtain ⟨x, hx, rfl⟩ := List.mem_map.1 he
    exact h x hx)
  refine Set.Finite.subset this ?_
  rintro vs ⟨σ, hσ, rfl⟩
  exact ⟨σ, hσ, allEvalTo_vars σ xs⟩

/-- An aggregation that is accepted ranges over finitely many tuples. -/
theorem checkAgg_finite (hX : X.Proper) (hD : FiniteDB B D) {n : Nat} {left : List (Option Name)} {op : String} {args bindings : List Name}
    {body : Formula F} {gv : List Name} {gb : List (Formula F)} (hf : (Formula.reduce left op args bindings body gv gb).Flat B V) {ks : List Name}
    (h : checkAgg (checkConj B [] n) (.reduce left op args bindings body gv gb) = .ok ks) (V' : Name → Prop) :
    ∃ bound : List Name, ks = bound.filter (fun x => !bindings.contains x) ++ left.filterMap id ++ args ∧ (∀ x ∈ bindings ++ args, x ∈ bound) ∧ (∀ x ∈ args, x ∉ bindings) ∧
      (∀ x ∈ bound, (valuesOf X {τ | (∀ x, (τ x).Proper) ∧ body.Holds X D G V' τ ∧ Formula.Holds.allHold X D G V' τ gb} (.var x)).Finite) ∧
      (∀ x ∈ bound, ¬ body.NamesIn (· ≠ x) ∨ ∃ g ∈ gb, ¬ g.NamesIn (· ≠ x)) ∧
      ∀ g, gb = [g] → ∃ bg, checkBody (checkConj B [] n) gv g = .ok bg := by
  simp only [Formula.Flat] at hf
  obtain ⟨f1, f2, f3, f4⟩ := hf
  simp only [checkAgg] at h
  obtain ⟨bg, hg, h⟩ := bind_ok h
  obtain ⟨bound, hb, h⟩ := bind_ok h
  split at h
  · rename_i hall
    cases h
    simp only [List.all_eq_true, Bool.and_eq_true, List.contains_iff_mem, Bool.not_eq_true', ← Bool.not_eq_true] at hall
    refine ⟨bound, rfl, checkBody_head hb, fun x hx => (hall x hx).2, ?_, ?_, ?_⟩
    · intro x hx
      rcases f4 with rfl | ⟨g, rfl, g1, g2, _⟩
      · refine (checkBody_sound (G := G) (V := V') hX hD f2 f1 hb x hx).subset ?_
        rintro v ⟨τ, ⟨t1, t2, _⟩, hv⟩
        exact ⟨τ, ⟨t1, t2⟩, hv⟩
      · refine (checkBody_sound (G := G) (V := V') hX hD (f := .conj [body, g]) ?_ ?_ hb x hx).subset ?_
        · simp only [Formula.NonEmpty, Formula.NonEmpty.allNonEmpty]
          exact ⟨by simp, f2, g2, trivial⟩
        · simp only [Formula.Ordinary, Formula.Ordinary.allOrdinary]
          exact ⟨f1, g1, trivial⟩
        · rintro v ⟨τ, ⟨t1, t2, t3⟩, hv⟩
          refine ⟨τ, ⟨t1, ?_⟩, hv⟩
          simp only [Formula.Holds, Formula.Holds.allHold] at t3 ⊢
          exact ⟨t2, t3⟩
    · intro x hx
      rcases f4 with rfl | ⟨g, rfl, g1, g2, _⟩
      · exact .inl (checkBody_names f1 hb hx)
      · have := checkBody_names (f := .conj [body, g]) (by simp only [Formula.Ordinary, Formula.Ordinary.allOrdinary]; exact ⟨f1, g1, trivial⟩) hb hx
        simp only [Formula.NamesIn, Formula.NamesIn.allNamesIn, and_true, not_and_or] at this
        simpa using this
    · rintro g rfl
      exact ⟨bg, hg⟩
  · cases h

/-- What an accepted aggregation binds has finitely many values. -/
theorem checkAgg_sound (hX : X.Proper) (hD : FiniteDB B D) (hG : FiniteAggs G) {n : Nat} {a : Formula F} (hf : a.Flat B V) {ks : List Name}
    (h : checkAgg (checkConj B [] n) a = .ok ks) (hH : ∀ σ ∈ H, (∀ x, (σ x).Proper) ∧ a.Grouped X D G V σ) :
    ∀ x ∈ ks, V x → (valuesOf X H (.var x)).Finite := by
  cases a with
  | reduce left op args bindings body gv gb =>
    obtain ⟨bound, rfl, b1, b2, b3, b4, b5⟩ := checkAgg_finite (G := G) hX hD hf h V
    simp only [Formula.Flat] at hf
    obtain ⟨f1, f2, f3, f4⟩ := hf
    simp only [Formula.Grouped] at hH
    let T := {τ : Name → Val F | (∀ x, (τ x).Proper) ∧ body.Holds X D G V τ ∧ Formula.Holds.allHold X D G V τ gb}
    have hT : ∀ σ ∈ H, ∀ τ, InGroup X D G V bindings body σ τ → τ ∈ T := by
      rintro σ hσ τ ⟨t1, t2, t3⟩
      refine ⟨t1, (ordinary_shared body f1).1 t3, ?_⟩
      have hg := (hH σ hσ).2.1
      rcases f4 with rfl | ⟨g, rfl, g1, g2, g3, _⟩
      · simp [Formula.Holds.allHold]
      · simp only [Formula.Holds.allHold, and_true] at hg ⊢
        exact (holds_ordinary g g1 g3 (fun x hx => (t2 x hx.1 hx.2).symm)).1 hg
    have hbound : ∀ x ∈ bound, x ∉ bindings → V x → (valuesOf X H (.var x)).Finite := by
      intro x hx hxb hV
      rcases f4 with rfl | ⟨g, rfl, g1, g2, g3, g4⟩
      · refine (b3 x hx).subset ?_
        rintro v ⟨σ, hσ, hv⟩
        have hs : SharesVariable V bindings body := by
          intro hn
          rcases b4 x hx with k | ⟨g, hg, _⟩
          · refine k (names_mono (fun y hy e => ?_) body hn)
            subst e
            exact hy.elim (fun h => h hV) hxb
          · simp at hg
        obtain ⟨τ, hτ⟩ := (hH σ hσ).2.2.1 rfl hs
        refine ⟨τ, hT σ hσ τ hτ, ?_⟩
        simp only [FExpr.EvalsTo] at hv ⊢
        rw [hv, hτ.2.1 x hV hxb]
      · have hgv : x ∈ gv := by
          by_contra hgv
          obtain ⟨k1, k2⟩ := g4 x hV hxb hgv
          rcases b4 x hx with k | ⟨g', hg', k⟩
          · exact k k1
          · simp only [List.mem_singleton] at hg'
            subst hg'
            exact k k2
        obtain ⟨bg, hbg⟩ := b5 g rfl
        refine (checkBody_sound (G := G) (V := V) hX hD g2 g1 hbg x (checkBody_head hbg x hgv)).subset ?_
        rintro v ⟨σ, hσ, hv⟩
        have := (hH σ hσ).2.1
        simp only [Formula.Holds.allHold, and_true] at this
        exact ⟨σ, ⟨(hH σ hσ).1, this⟩, hv⟩
    have hargs : ∀ x ∈ args, (valuesOf X H (.var x)).Finite := fun x hx => hbound x (b1 x (by simp [hx])) (b2 x hx) (f3 x hx)
    intro x hx hV
    simp only [List.mem_append, List.mem_filter, Bool.not_eq_true', ← Bool.not_eq_true, List.contains_iff_mem] at hx
    rcases hx with (⟨hx, hxb⟩ | hx) | hx
    · exact hbound x hx hxb hV
    · have hx : some x ∈ left := by simpa using hx
      by_cases ho : op = "exists"
      · refine (Set.toFinite ({.bool true, .bool false} : Set (Val F))).subset ?_
        rintro v ⟨σ, hσ, hv⟩
        have := (hH σ hσ).2.2.2
        rw [if_pos ho] at this
        obtain ⟨t, ht, _⟩ := this x hx
        simp only [FExpr.EvalsTo] at hv
        rw [hv, ht]
        cases t <;> simp
      · have hR : {vs | ∃ τ ∈ T, bindings.map τ = vs}.Finite := tuples_finite (X := X) bindings (fun y hy => b3 y (b1 y (by simp [hy])))
        have hA := tuples_finite (X := X) (H := H) args hargs
        have hfin : {rs | ∃ S ∈ {S : Set (List (Val F)) | S ⊆ {vs | ∃ τ ∈ T, bindings.map τ = vs}}, ∃ vs ∈ {vs | ∃ σ ∈ H, args.map σ = vs},
            G op rs vs (fun v => v ∈ S)}.Finite := by
          have h1 := hR.finite_subsets.biUnion (t := fun S => ⋃ vs ∈ {vs | ∃ σ ∈ H, args.map σ = vs}, {rs | G op rs vs (fun v => v ∈ S)})
            (fun S hS => hA.biUnion (fun vs _ => hG op vs _ (hR.subset hS)))
          refine h1.subset ?_
          rintro rs ⟨S, hS, vs, hvs, hg⟩
          exact Set.mem_biUnion hS (Set.mem_biUnion hvs hg)
        refine (hfin.biUnion (t := fun rs => {v | some v ∈ rs}) (fun rs _ => ?_)).subset ?_
        · refine (List.finite_toSet (rs.filterMap id)).subset ?_
          intro v hv
          simpa using hv
        · rintro v ⟨σ, hσ, hv⟩
          have := (hH σ hσ).2.2.2
          rw [if_neg ho] at this
          simp only [FExpr.EvalsTo] at hv
          refine Set.mem_biUnion ⟨{vs | ∃ τ, InGroup X D G V bindings body σ τ ∧ bindings.map τ = vs}, ?_, args.map σ, ⟨σ, hσ, rfl⟩, this⟩ ?_
          · rintro vs ⟨τ, hτ, rfl⟩
            exact ⟨τ, hT σ hσ τ hτ, rfl⟩
          · rw [hv]
            exact List.mem_map.2 ⟨some x, hx, rfl⟩
    · exact hargs x hx
  | _ => simp [checkAgg] at h

end

/-! ## Normal forms -/

/-- All parts of a conjunction are true. -/
def ConjCtx.Grouped (X : Ext F) (D : DB F) (G : Aggs F) (V : Name → Prop) (σ : Name → Val F) (c : ConjCtx F) : Prop :=
  ∀ l ∈ c.pos ++ c.neg ++ c.agg, l.Grouped X D G V σ

theorem join_grouped {σ : Name → Val F} (cs : List (ConjCtx F)) (h : ∀ c ∈ cs, c.Grouped X D G V σ) : (ConjCtx.join cs).Grouped X D G V σ := by
  intro l hl
  rcases join_mem cs _ hl with h' | ⟨c, h1, h2⟩
  · simp at h'
  · exact h c h1 l h2

mutual
theorem fromFormula_grouped {σ : Name → Val F} : ∀ (f : Formula F), f.NonEmpty → ∀ cs, fromFormula f = some cs → f.Grouped X D G V σ →
    ∃ c ∈ cs, c.Grouped X D G V σ
  | .disj fs, hn, cs, e, h => by
    simp only [fromFormula, Option.map_eq_some_iff] at e
    obtain ⟨css, e1, rfl⟩ := e
    simp only [Formula.Grouped] at h
    obtain ⟨cs, h1, c, h2, h3⟩ := (fromAll_grouped fs hn.2 css e1).1 h
    exact ⟨c, List.mem_flatten.2 ⟨cs, h1, h2⟩, h3⟩
  | .conj fs, hn, cs, e, h => by
    simp only [fromFormula, Option.map_eq_some_iff] at e
    obtain ⟨css, e1, rfl⟩ := e
    have hne : css ≠ [] := fun k => hn.1 ((fromAll_nil e1).1 k)
    simp only [Formula.Grouped] at h
    obtain ⟨xs, h1, h2⟩ := (fromAll_grouped fs hn.2 css e1).2 h
    exact ⟨_, List.mem_map.2 ⟨xs, (mem_multiProduct hne).2 h1, rfl⟩, join_grouped xs h2⟩
  | .atom p args, _, cs, e, h => by
    simp only [fromFormula, Option.some.injEq] at e
    subst e
    exact ⟨_, List.mem_singleton.2 rfl, by simpa [ConjCtx.Grouped] using h⟩
  | .neg p args, _, cs, e, h => by
    simp only [fromFormula, Option.some.injEq] at e
    subst e
    exact ⟨_, List.mem_singleton.2 rfl, by simpa [ConjCtx.Grouped] using h⟩
  | .constraint c, _, cs, e, h => by
    simp only [fromFormula, Option.some.injEq] at e
    subst e
    exact ⟨_, List.mem_singleton.2 rfl, by simpa [ConjCtx.Grouped] using h⟩
  | .reduce .., _, cs, e, h => by
    simp only [fromFormula, Option.some.injEq] at e
    subst e
    refine ⟨_, List.mem_singleton.2 rfl, ?_⟩
    simp only [ConjCtx.Grouped, List.nil_append, List.mem_singleton, forall_eq]
    exact h
  | .implies _ _, _, cs, e, _ => by simp [fromFormula] at e
  | .case _ _, _, cs, e, _ => by simp [fromFormula] at e
  | .quant .., _, cs, e, _ => by simp [fromFormula] at e
  | .range .., _, cs, e, _ => by simp [fromFormula] at e
theorem fromAll_grouped {σ : Name → Val F} : ∀ (fs : List (Formula F)), Formula.NonEmpty.allNonEmpty fs →
    ∀ css, fromFormula.fromAll fs = some css →
    (Formula.Grouped.anyGrouped X D G V σ fs → ∃ cs ∈ css, ∃ c ∈ cs, c.Grouped X D G V σ) ∧
    (Formula.Grouped.allGrouped X D G V σ fs → ∃ xs, All₂ (· ∈ ·) xs css ∧ ∀ c ∈ xs, ConjCtx.Grouped X D G V σ c)
  | [], _, css, e => by
    simp only [fromFormula.fromAll, Option.some.injEq] at e
    subst e
    refine ⟨by simp [Formula.Grouped.anyGrouped], fun _ => ⟨[], trivial, by simp⟩⟩
  | f :: fs, hn, css, e => by
    simp only [fromFormula.fromAll, Option.bind_eq_some_iff, Option.map_eq_some_iff] at e
    obtain ⟨cs, e1, css', e2, rfl⟩ := e
    have h1 := fromFormula_grouped (σ := σ) f hn.1 cs e1
    have h2 := fromAll_grouped (σ := σ) fs hn.2 css' e2
    refine ⟨fun h => ?_, fun h => ?_⟩
    · rcases h with h | h
      · obtain ⟨c, hc, hh⟩ := h1 h
        exact ⟨cs, by simp, c, hc, hh⟩
      · obtain ⟨cs', k1, k2⟩ := h2.1 h
        exact ⟨cs', by simp [k1], k2⟩
    · obtain ⟨c, hc, hh⟩ := h1 h.1
      obtain ⟨xs, hx, hxx⟩ := h2.2 h.2
      exact ⟨c :: xs, ⟨hc, hx⟩, by simpa using ⟨hh, hxx⟩⟩
end

theorem allFlat_mem : ∀ (fs : List (Formula F)), Formula.Flat.allFlat B V fs → ∀ f ∈ fs, f.Flat B V
  | [], _, f, hf => by simp at hf
  | g :: fs, h, f, hf => by
    simp only [Formula.Flat.allFlat] at h
    rcases List.mem_cons.1 hf with rfl | hf
    · exact h.1
    · exact allFlat_mem fs h.2 f hf

theorem fromFormula_flat (f : Formula F) (ho : f.Flat B V) (cs : List (ConjCtx F)) (hcs : fromFormula f = some cs) :
    ∀ c ∈ cs, ∀ l ∈ c.pos ++ c.neg ++ c.agg, l.Flat B V :=
  fromFormula_mem (Q := fun f => f.Flat B V) (fun fs hf f hm => allFlat_mem fs (by simpa [Formula.Flat] using hf) f hm)
    (fun fs hf f hm => allFlat_mem fs (by simpa [Formula.Flat] using hf) f hm) f ho cs hcs

theorem pick_all {α : Type} : ∀ css : List (List α), (∀ cs ∈ css, cs ≠ []) → ∃ xs, All₂ (· ∈ ·) xs css
  | [], _ => ⟨[], trivial⟩
  | cs :: css, h => by
    obtain ⟨xs, hx⟩ := pick_all css (fun c hc => h c (by simp [hc]))
    obtain ⟨c, hc⟩ := List.exists_mem_of_ne_nil cs (h cs (by simp))
    exact ⟨c :: xs, hc, hx⟩

theorem pick_with {α : Type} : ∀ css : List (List α), (∀ cs ∈ css, cs ≠ []) → ∀ cs ∈ css, ∀ c ∈ cs, ∃ xs, All₂ (· ∈ ·) xs css ∧ c ∈ xs
  | [], _, cs, hcs, _, _ => by simp at hcs
  | cs' :: css, h, cs, hcs, c, hc => by
    rcases List.mem_cons.1 hcs with rfl | hcs
    · obtain ⟨xs, hx⟩ := pick_all css (fun c hc => h c (by simp [hc]))
      exact ⟨c :: xs, ⟨hc, hx⟩, by simp⟩
    · obtain ⟨xs, hx, hm⟩ := pick_with css (fun c hc => h c (by simp [hc])) cs hcs c hc
      obtain ⟨d, hd⟩ := List.exists_mem_of_ne_nil cs' (h cs' (by simp))
      exact ⟨d :: xs, ⟨hd, hx⟩, by simp [hm]⟩

theorem join_agg_aux {l : Formula F} : ∀ (cs : List (ConjCtx F)) (a : ConjCtx F), (l ∈ a.agg ∨ ∃ c ∈ cs, l ∈ c.agg) →
    l ∈ (cs.foldl (fun acc new => (⟨acc.pos ++ new.pos, acc.neg ++ new.neg, acc.agg ++ new.agg⟩ : ConjCtx F)) a).agg
  | [], a, h => by simpa using h
  | c :: cs, a, h => by
    rw [List.foldl_cons]
    refine join_agg_aux cs _ ?_
    rcases h with h | ⟨c', hc, h⟩
    · exact .inl (by simp [h])
    · rcases List.mem_cons.1 hc with rfl | hc
      · exact .inl (by simp [h])
      · exact .inr ⟨c', hc, h⟩

theorem join_agg (cs : List (ConjCtx F)) (c : ConjCtx F) (hc : c ∈ cs) (l : Formula F) (hl : l ∈ c.agg) : l ∈ (ConjCtx.join cs).agg :=
  join_agg_aux cs _ (.inr ⟨c, hc, hl⟩)

theorem collectOk_of {α β : Type} {f : α → Outcome β} : ∀ (as : List α) (bs : List β), collectOk f as = .ok bs → ∀ b ∈ bs, ∃ a ∈ as, f a = .ok b
  | [], bs, h, b, hb => by
    simp only [collectOk] at h
    cases h
    simp at hb
  | a :: as, bs, h, b, hb => by
    simp only [collectOk] at h
    obtain ⟨b', h1, h⟩ := bind_ok h
    obtain ⟨bs', h2, h⟩ := bind_ok h
    cases h
    rcases List.mem_cons.1 hb with rfl | hb
    · exact ⟨a, by simp, h1⟩
    · obtain ⟨a', h3, h4⟩ := collectOk_of as bs' h2 b hb
      exact ⟨a', by simp [h3], h4⟩

/-- Only what is known of the variables that occur matters. -/
theorem compute_restrict {w : Walked} {known known' : List Name} {exprs : List Loc} {bs : List Name} (h : w.compute known exprs = .ok bs)
    (hk : ∀ v ∈ w.vars, known.contains v.1 = known'.contains v.1) : w.compute known' exprs = .ok (known' ++ varNames w.vars) := by
  have e : w.vars.filter (fun v => known.contains v.1) = w.vars.filter (fun v => known'.contains v.1) := List.filter_congr hk
  unfold Walked.compute at h ⊢
  rw [e] at h
  split at h
  · cases h
  · rename_i s hs
    split at h
    · rename_i hc
      rw [if_pos hc]
    · cases h

section
variable [Finite F]

open Classical in
/-- The variables of an accepted conjunction have finitely many values. -/
theorem checkConj_flat (hX : X.Proper) (hD : FiniteDB B D) (hG : FiniteAggs G) {c : ConjCtx F} {n : Nat} (hc : Sorted c)
    (hf : ∀ l ∈ c.pos ++ c.neg ++ c.agg, l.Flat B V) (hH : ∀ σ ∈ H, (∀ x, (σ x).Proper) ∧ c.Grouped X D G V σ) {bs : List Name}
    (h : checkConj B [] n c = .ok bs) : ∀ x ∈ bs, V x → (valuesOf X H (.var x)).Finite := by
  cases n with
  | zero => simp [checkConj] at h
  | succ n =>
    simp only [checkConj] at h
    obtain ⟨ks, h1, h2⟩ := bind_ok h
    have hpos : ∀ f ∈ c.pos, f.Ordinary B ∧ f.NamesIn V ∧ ∀ σ ∈ H, f.Holds X D G V σ := by
      intro f hm
      have hfl := hf f (by simp [hm])
      have hg := fun σ hσ => (hH σ hσ).2 f (by simp [hm])
      rcases hc.1 f hm with ⟨p, args, rfl⟩ | ⟨e, rfl⟩
      · simp only [Formula.Flat] at hfl
        exact ⟨hfl.1, hfl.2, fun σ hσ => by simpa only [Formula.Grouped] using hg σ hσ⟩
      · simp only [Formula.Flat] at hfl
        exact ⟨hfl.1, hfl.2, fun σ hσ => by simpa only [Formula.Grouped] using hg σ hσ⟩
    have hk : ∀ x ∈ ks.flatten, V x → (valuesOf X H (.var x)).Finite := by
      intro x hx hV
      obtain ⟨k, hk, hx⟩ := List.mem_flatten.1 hx
      obtain ⟨a, ha, hb⟩ := collectOk_of c.agg ks h1 k hk
      exact checkAgg_sound hX hD hG (hf a (by simp [ha])) hb (fun σ hσ => ⟨(hH σ hσ).1, (hH σ hσ).2 a (by simp [ha])⟩) x hx hV
    have hvars : ∀ v ∈ ((walkFormulas B 0 c.pos).append (walkExprs c.pos.length ([] : List (FExpr F)))).vars, V v.1 := by
      intro v hv
      have hv' : v.1 ∈ (walkFormulas B 0 c.pos).vars.map Prod.fst := by
        rcases mem_append_vars.1 hv with hv | hv
        · exact List.mem_map.2 ⟨v, hv, rfl⟩
        · simp [walkExprs] at hv
      rw [formulas_vars, List.mem_flatMap] at hv'
      obtain ⟨f, hm, hv'⟩ := hv'
      exact posVars_in f (hpos f hm).2.1 _ hv'
    have h3 := compute_restrict (known' := ks.flatten.filter (fun x => decide (V x))) h2 (by
      intro v hv
      have := hvars v hv
      rw [Bool.eq_iff_iff, List.contains_iff_mem, List.contains_iff_mem]
      simp [this])
    have h4 := local_sound (K := .fin) (X := X) (H := H) (D := D) (G := G) (V := V) (B := B) c [] (ks.flatten.filter (fun x => decide (V x)))
      (fun f hm => (hpos f hm).1) (fun f hm => (hpos f hm).2.2)
      (fun f hm => form_fin hX (fun σ hσ => (hH σ hσ).1) hD f (hpos f hm).1 (hpos f hm).2.2) (by simp)
      (by
        intro x hx
        simp only [List.mem_filter, decide_eq_true_eq] at hx
        exact hk x hx.1 hx.2) _ h3
    intro x hx hV
    rw [compute_names h2, List.mem_append] at hx
    rcases hx with hx | hx
    · exact hk x hx hV
    · exact h4 x (by simp [hx])

/-- An accepted rule with aggregations derives finitely many facts. -/
theorem checkRule_flat (hX : X.Proper) (hD : FiniteDB B D) (hG : FiniteAggs G) (args : List (FExpr F)) (body : Formula F)
    (hne : body.NonEmpty) (hf : body.Flat B V) (ha : FExpr.AllOrdinary args) (hV : FExpr.AllNamesIn V args) (bs : List Name)
    (h : checkRule B [] args body = .ok bs) : {vs | DerivesGrouped X D G V args body vs}.Finite := by
  have h0 : ((args.zip ([] : List Bool)).filter (fun a => a.2)).map Prod.fst = [] := by simp
  unfold checkRule at h
  rw [h0] at h
  have hhead := checkBody_head h
  unfold checkBody at h
  cases hcs : fromFormula body with
  | none => simp [hcs] at h
  | some cs =>
    rw [hcs] at h
    simp only at h
    obtain ⟨ss, h1, h2⟩ := bind_ok h
    split at h2
    · cases h2
      have key : ∀ c ∈ cs, {vs | ∃ σ ∈ {σ : Name → Val F | (∀ x, (σ x).Proper) ∧ c.Grouped X D G V σ}, FExpr.AllEvalTo X σ args vs}.Finite := by
        intro c hc
        obtain ⟨b, hb1, hb2⟩ := collectOk_mem _ _ h1 c hc
        refine values_all (K := .fin) args (fun e he => values_of_varsAll args ha (fun x hx => ?_) e he)
        exact checkConj_flat hX hD hG (fromFormula_sorted body cs hcs c hc) (fromFormula_flat body hf cs hcs c hc) (fun σ hσ => hσ) hb2 x
          (mem_meetAll ss x (hhead x hx) b hb1) (usedVarsAll_in args hV x hx)
      refine ((List.finite_toSet cs).biUnion key).subset ?_
      rintro vs ⟨σ, p1, p2, p3⟩
      obtain ⟨c, hc, p2⟩ := fromFormula_grouped body hne cs hcs p2
      exact Set.mem_biUnion hc ⟨σ, ⟨p1, p2⟩, p3⟩
    · cases h2

end

mutual
/-- Every aggregation is in some conjunction of the normal form. -/
theorem fromFormula_aggs : ∀ (f : Formula F), f.NonEmpty → ∀ cs, fromFormula f = some cs → cs ≠ [] ∧ ∀ a ∈ f.aggregations, ∃ c ∈ cs, a ∈ c.agg
  | .disj fs, hn, cs, e => by
    simp only [fromFormula, Option.map_eq_some_iff] at e
    obtain ⟨css, e1, rfl⟩ := e
    have h := fromAll_aggs fs hn.2 css e1
    have hne : css ≠ [] := fun k => hn.1 ((fromAll_nil e1).1 k)
    refine ⟨?_, fun a ha => ?_⟩
    · cases css with
      | nil => exact absurd rfl hne
      | cons cs css =>
        have := h.1 cs (by simp)
        intro k
        simp only [List.flatten_cons, List.append_eq_nil_iff] at k
        exact this k.1
    · obtain ⟨cs, h1, c, h2, h3⟩ := h.2 a (by simpa only [Formula.aggregations] using ha)
      exact ⟨c, List.mem_flatten.2 ⟨cs, h1, h2⟩, h3⟩
  | .conj fs, hn, cs, e => by
    simp only [fromFormula, Option.map_eq_some_iff] at e
    obtain ⟨css, e1, rfl⟩ := e
    have h := fromAll_aggs fs hn.2 css e1
    have hne : css ≠ [] := fun k => hn.1 ((fromAll_nil e1).1 k)
    refine ⟨?_, fun a ha => ?_⟩
    · obtain ⟨xs, hx⟩ := pick_all css h.1
      intro k
      have := (mem_multiProduct hne).2 hx
      simp only [List.map_eq_nil_iff] at k
      rw [k] at this
      simp at this
    · obtain ⟨cs, h1, c, h2, h3⟩ := h.2 a (by simpa only [Formula.aggregations] using ha)
      obtain ⟨xs, hx, hc⟩ := pick_with css h.1 cs h1 c h2
      exact ⟨_, List.mem_map.2 ⟨xs, (mem_multiProduct hne).2 hx, rfl⟩, join_agg xs c hc a h3⟩
  | .atom p args, _, cs, e => by
    simp only [fromFormula, Option.some.injEq] at e
    subst e
    simp [Formula.aggregations]
  | .neg p args, _, cs, e => by
    simp only [fromFormula, Option.some.injEq] at e
    subst e
    simp [Formula.aggregations]
  | .constraint c, _, cs, e => by
    simp only [fromFormula, Option.some.injEq] at e
    subst e
    simp [Formula.aggregations]
  | .reduce .., _, cs, e => by
    simp only [fromFormula, Option.some.injEq] at e
    subst e
    simp [Formula.aggregations]
  | .implies _ _, _, cs, e => by simp [fromFormula] at e
  | .case _ _, _, cs, e => by simp [fromFormula] at e
  | .quant .., _, cs, e => by simp [fromFormula] at e
  | .range .., _, cs, e => by simp [fromFormula] at e
/-- The same for a list. -/
theorem fromAll_aggs : ∀ (fs : List (Formula F)), Formula.NonEmpty.allNonEmpty fs → ∀ css, fromFormula.fromAll fs = some css →
    (∀ cs ∈ css, cs ≠ []) ∧ ∀ a ∈ Formula.aggregations.allAggregations fs, ∃ cs ∈ css, ∃ c ∈ cs, a ∈ c.agg
  | [], _, css, e => by
    simp only [fromFormula.fromAll, Option.some.injEq] at e
    subst e
    simp [Formula.aggregations.allAggregations]
  | f :: fs, hn, css, e => by
    simp only [fromFormula.fromAll, Option.bind_eq_some_iff, Option.map_eq_some_iff] at e
    obtain ⟨cs, e1, css', e2, rfl⟩ := e
    have h1 := fromFormula_aggs f hn.1 cs e1
    have h2 := fromAll_aggs fs hn.2 css' e2
    refine ⟨?_, fun a ha => ?_⟩
    · intro cs' hcs'
      rcases List.mem_cons.1 hcs' with rfl | hcs'
      · exact h1.1
      · exact h2.1 cs' hcs'
    · simp only [Formula.aggregations.allAggregations, List.mem_append] at ha
      rcases ha with ha | ha
      · exact ⟨cs, by simp, h1.2 a ha⟩
      · obtain ⟨cs', h3, h4⟩ := h2.2 a ha
        exact ⟨cs', by simp [h3], h4⟩
end

/-- In an accepted rule every aggregation ranges over finitely many tuples. -/
theorem checkRule_aggregated [Finite F] (hX : X.Proper) (hD : FiniteDB B D) (args : List (FExpr F)) (body : Formula F)
    (hne : body.NonEmpty) (hf : body.Flat B V) (bs : List Name) (h : checkRule B [] args body = .ok bs) (a : Formula F) (ha : a ∈ body.aggregations)
    (V' : Name → Prop) : (aggregated X D G V' a).Finite := by
  have h0 : ((args.zip ([] : List Bool)).filter (fun a => a.2)).map Prod.fst = [] := by simp
  unfold checkRule at h
  rw [h0] at h
  unfold checkBody at h
  cases hcs : fromFormula body with
  | none => simp [hcs] at h
  | some cs =>
    rw [hcs] at h
    simp only at h
    obtain ⟨ss, h1, _⟩ := bind_ok h
    obtain ⟨c, hc, hac⟩ := (fromFormula_aggs body hne cs hcs).2 a ha
    obtain ⟨b, hb1, hb2⟩ := collectOk_mem _ _ h1 c hc
    simp only [checkConj] at hb2
    obtain ⟨ks, h3, _⟩ := bind_ok hb2
    obtain ⟨k, _, hk⟩ := collectOk_mem _ _ h3 a hac
    have hfl := fromFormula_flat body hf cs hcs c hc a (by simp [hac])
    cases a with
    | reduce left op args bindings body gv gb =>
      obtain ⟨bound, _, b1, _, b3, _⟩ := checkAgg_finite (G := G) hX hD hfl hk V'
      refine (tuples_finite (X := X) bindings (fun y hy => b3 y (b1 y (by simp [hy])))).subset ?_
      rintro vs ⟨τ, t1, t2, t3, t4⟩
      exact ⟨τ, ⟨t1, t2, t3⟩, t4⟩
    | _ => simp [aggregated]

end Scallop.Front
