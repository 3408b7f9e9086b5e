import Verif.Proof.BoundnessRule

/-!
# Boundness analysis: accepted rules derive finitely many facts
-/

namespace Scallop.Front

variable {F : Type} {K : Small} {X : Ext F} {H : Set (Name → Val F)} {D : DB F} {G : Aggs F} {V : Name → Prop} {B : Bindings}

/-- For every disjunct of an accepted rule, the head has few values over any set of solutions over which atoms and sums are as needed. -/
theorem rule_small (demand : List Bool) (args : List (FExpr F)) (body : Formula F) (ho : body.Ordinary B) (ha : FExpr.AllOrdinary args)
    (bs : List Name) (h : checkRule B demand args body = .ok bs) (cs : List (ConjCtx F)) (hcs : fromFormula body = some cs) (c : ConjCtx F) (hc : c ∈ cs)
    (hh : ∀ σ ∈ H, c.Holds X D G V σ) (hF : ∀ f ∈ c.pos, FormSmall K X H B f) (hdef : ∀ σ ∈ H, ∃ vs, FExpr.AllEvalTo X σ args vs)
    (hR : ∀ e ∈ args, Rev K X H e) (hdem : ∀ (i : Nat) (e : FExpr F), demand[i]? = some true → args[i]? = some e → K.is (valuesOf X H e)) :
    K.is {vs | ∃ σ ∈ H, FExpr.AllEvalTo X σ args vs} := by
  unfold checkRule checkBody at h
  rw [hcs] at h
  simp only at h
  obtain ⟨ss, h1, h2⟩ := bind_ok h
  split at h2
  · rename_i hall
    have hord := fromFormula_mem (Q := fun f => f.Ordinary B) (fun fs hf f hm => allOrdinary_mem fs (by simpa [Formula.Ordinary] using hf) f hm)
      (fun fs hf f hm => allOrdinary_mem fs (by simpa [Formula.Ordinary] using hf) f hm) body ho cs hcs
    obtain ⟨b, hb1, hb2⟩ := collectOk_mem _ _ h1 c hc
    refine values_all args (fun e he => ?_)
    refine values_of_varsAll args ha (fun x hx => ?_) e he
    refine checkConj_sound (D := D) (G := G) (V := V) c _ _ (hord c hc) hh hF ?_ b hb2 x ?_
    · intro e he
      simp only [List.mem_map, List.mem_filter] at he
      obtain ⟨⟨e', d⟩, ⟨hz, hd⟩, rfl⟩ := he
      simp only at hd
      subst hd
      obtain ⟨i, hi, hz⟩ := List.mem_iff_getElem.1 hz
      simp only [List.length_zip] at hi
      rw [List.getElem_zip] at hz
      simp only [Prod.mk.injEq] at hz
      have he' : args[i]? = some e' := by rw [List.getElem?_eq_getElem (by omega), hz.1]
      have hd' : demand[i]? = some true := by rw [List.getElem?_eq_getElem (by omega), hz.2]
      have hm := List.mem_of_getElem? he'
      refine ⟨.inr ⟨(allOrdinary_iff args).1 ha e' hm, fun σ hσ => ?_, hR e' hm⟩, fun _ => hdem i e' hd' he'⟩
      obtain ⟨vs, hvs⟩ := hdef σ hσ
      obtain ⟨w, _, hw⟩ := allEvalTo_get args vs hvs i e' he'
      exact ⟨w, hw⟩
    · rw [List.all_eq_true] at hall
      exact mem_meetAll ss x (by simpa using hall x hx) b hb1
  · cases h2

mutual
/-- Subexpressions of ordinary expressions are ordinary, and have a value if the expression has. -/
theorem sub_defined : ∀ (e : FExpr F), e.Ordinary → Defined X H e → ∀ q e', e.sub q = some e' → e'.Ordinary ∧ Defined X H e'
  | e, ho, hd, [], e', h => by rw [sub_nil] at h; cases h; exact ⟨ho, hd⟩
  | .const _, _, _, _ :: _, _, h => by simp [FExpr.sub] at h
  | .var _, _, _, _ :: _, _, h => by simp [FExpr.sub] at h
  | .wild, _, _, _ :: _, _, h => by simp [FExpr.sub] at h
  | .bin op a b, ho, hd, i :: q, e', h => by
    simp only [FExpr.Ordinary] at ho
    match i, h with
    | 0, h =>
      refine sub_defined a ho.1 (fun σ hσ => ?_) q e' (by simpa [FExpr.sub] using h)
      obtain ⟨v, hv⟩ := hd σ hσ
      simp only [FExpr.EvalsTo] at hv
      obtain ⟨x, y, h1, _⟩ := hv
      exact ⟨x, h1⟩
    | 1, h =>
      refine sub_defined b ho.2 (fun σ hσ => ?_) q e' (by simpa [FExpr.sub] using h)
      obtain ⟨v, hv⟩ := hd σ hσ
      simp only [FExpr.EvalsTo] at hv
      obtain ⟨x, y, _, h1, _⟩ := hv
      exact ⟨y, h1⟩
    | _ + 2, h => simp [FExpr.sub] at h
  | .un op a, ho, hd, i :: q, e', h => by
    simp only [FExpr.Ordinary] at ho
    match i, h with
    | 0, h =>
      refine sub_defined a ho (fun σ hσ => ?_) q e' (by simpa [FExpr.sub] using h)
      obtain ⟨v, hv⟩ := hd σ hσ
      simp only [FExpr.EvalsTo] at hv
      obtain ⟨x, h1, _⟩ := hv
      exact ⟨x, h1⟩
    | _ + 1, h => simp [FExpr.sub] at h
  | .ite c t e, ho, hd, i :: q, e', h => by
    simp only [FExpr.Ordinary] at ho
    have key : ∀ σ ∈ H, (∃ v, c.EvalsTo X σ v) ∧ (∃ v, t.EvalsTo X σ v) ∧ ∃ v, e.EvalsTo X σ v := by
      intro σ hσ
      obtain ⟨v, hv⟩ := hd σ hσ
      simp only [FExpr.EvalsTo] at hv
      obtain ⟨b, x, y, h1, h2, h3, _⟩ := hv
      exact ⟨⟨_, h1⟩, ⟨_, h2⟩, ⟨_, h3⟩⟩
    match i, h with
    | 0, h => exact sub_defined c ho.1 (fun σ hσ => (key σ hσ).1) q e' (by simpa [FExpr.sub] using h)
    | 1, h => exact sub_defined t ho.2.1 (fun σ hσ => (key σ hσ).2.1) q e' (by simpa [FExpr.sub] using h)
    | 2, h => exact sub_defined e ho.2.2 (fun σ hσ => (key σ hσ).2.2) q e' (by simpa [FExpr.sub] using h)
    | _ + 3, h => simp [FExpr.sub] at h
  | .call f args, ho, hd, i :: q, e', h => by
    simp only [FExpr.Ordinary] at ho
    refine subAll_defined args ho (fun σ hσ => ?_) i q e' (by simpa [FExpr.sub] using h)
    obtain ⟨v, hv⟩ := hd σ hσ
    simp only [FExpr.EvalsTo] at hv
    obtain ⟨vs, h1, _⟩ := hv
    exact ⟨vs, h1⟩
  | .new f args, ho, hd, i :: q, e', h => by
    simp only [FExpr.Ordinary] at ho
    refine subAll_defined args ho (fun σ hσ => ?_) i q e' (by simpa [FExpr.sub] using h)
    obtain ⟨v, hv⟩ := hd σ hσ
    simp only [FExpr.EvalsTo] at hv
    obtain ⟨vs, h1, _⟩ := hv
    exact ⟨vs, h1⟩
/-- The same for a list. -/
theorem subAll_defined : ∀ (es : List (FExpr F)), FExpr.AllOrdinary es → (∀ σ ∈ H, ∃ vs, FExpr.AllEvalTo X σ es vs) →
    ∀ i q e', FExpr.subAll es i q = some e' → e'.Ordinary ∧ Defined X H e'
  | [], _, _, i, q, e', h => by simp [FExpr.subAll] at h
  | e :: es, ho, hd, 0, q, e', h => by
    simp only [FExpr.AllOrdinary] at ho
    refine sub_defined e ho.1 (fun σ hσ => ?_) q e' (by simpa [FExpr.subAll] using h)
    obtain ⟨vs, hv⟩ := hd σ hσ
    simp only [FExpr.AllEvalTo] at hv
    obtain ⟨w, ws, _, h1, _⟩ := hv
    exact ⟨w, h1⟩
  | e :: es, ho, hd, i + 1, q, e', h => by
    simp only [FExpr.AllOrdinary] at ho
    refine subAll_defined es ho.2 (fun σ hσ => ?_) i q e' (by simpa [FExpr.subAll] using h)
    obtain ⟨vs, hv⟩ := hd σ hσ
    simp only [FExpr.AllEvalTo] at hv
    obtain ⟨w, ws, _, _, h1⟩ := hv
    exact ⟨ws, h1⟩
end

section
variable [Finite F]

theorem rev_fin (hX : X.Proper) (hH : ∀ σ ∈ H, ∀ x, (σ x).Proper) (e : FExpr F) (ho : e.Ordinary) (hd : Defined X H e) : Rev .fin X H e := by
  intro q op a b hq hop
  obtain ⟨ho', hd'⟩ := sub_defined e ho hd q _ hq
  simp only [FExpr.Ordinary] at ho'
  exact ⟨values_addSub_right hX hH hop ho'.1 ho'.2 hd', values_addSub_left hX hH hop ho'.1 ho'.2 hd'⟩

theorem atom_fin (hD : FiniteDB B D) (pred : String) (args : List (FExpr F))
    (ho : (Formula.atom pred args).Ordinary B) (hh : ∀ σ ∈ H, (Formula.atom pred args).Holds X D G V σ) : AtomSmall .fin X H B pred args := by
  simp only [Formula.Ordinary] at ho
  have hh' : ∀ σ ∈ H, ∃ vs, FExpr.AllEvalTo X σ args vs ∧ D pred vs := fun σ hσ => by simpa only [Formula.Holds] using hh σ hσ
  unfold AtomSmall
  split
  · rename_i hB
    intro e he ho'
    refine (members_finite _ (hD.relation pred hB)).subset ?_
    rintro v ⟨σ, hσ, hv⟩
    obtain ⟨vs, q1, q2⟩ := hh' σ hσ
    obtain ⟨j, hj, rfl⟩ := List.mem_iff_getElem.1 he
    obtain ⟨w, hw1, hw2⟩ := allEvalTo_get _ _ q1 j _ (List.getElem?_eq_getElem hj)
    refine ⟨vs, q2, ?_⟩
    rw [evalsTo_unique _ ho' _ _ hv hw2]
    exact List.mem_of_getElem? hw1
  · rename_i arity nb hB
    obtain ⟨h1, h2, h3⟩ := ho.2 arity nb hB
    intro hin e he ho'
    have hfin := values_all (K := .fin) (X := X) (H := H) _ hin
    have hfin2 : {ws | ∃ vs ∈ {vs | ∃ σ ∈ H, FExpr.AllEvalTo X σ (args.take nb) vs}, D pred (vs ++ ws)}.Finite := by
      have : {ws | ∃ vs ∈ {vs | ∃ σ ∈ H, FExpr.AllEvalTo X σ (args.take nb) vs}, D pred (vs ++ ws)} =
          ⋃ vs ∈ {vs | ∃ σ ∈ H, FExpr.AllEvalTo X σ (args.take nb) vs}, {ws | D pred (vs ++ ws)} := by
        ext v; simp only [Set.mem_setOf_eq, Set.mem_iUnion, exists_prop]
      rw [this]
      refine Set.Finite.biUnion hfin (fun vs hvs => hD.foreign pred arity nb hB vs ?_)
      obtain ⟨σ, _, hv⟩ := hvs
      rw [allEvalTo_length _ _ hv, List.length_take]
      omega
    refine (members_finite _ hfin2).subset ?_
    rintro v ⟨σ, hσ, hv⟩
    obtain ⟨vs, q1, q2⟩ := hh' σ hσ
    rw [← List.take_append_drop nb args] at q1
    obtain ⟨xs, ys, rfl, q3, q4⟩ := allEvalTo_append _ _ _ q1
    refine ⟨ys, ⟨xs, ⟨σ, hσ, q3⟩, q2⟩, ?_⟩
    obtain ⟨i, hi, rfl⟩ := List.mem_iff_getElem.1 he
    obtain ⟨w, hw1, hw2⟩ := allEvalTo_get _ _ q4 i _ (List.getElem?_eq_getElem hi)
    rw [evalsTo_unique _ ho' _ _ hv hw2]
    exact List.mem_of_getElem? hw1

theorem form_fin (hX : X.Proper) (hH : ∀ σ ∈ H, ∀ x, (σ x).Proper) (hD : FiniteDB B D) (f : Formula F) (ho : f.Ordinary B)
    (hh : ∀ σ ∈ H, f.Holds X D G V σ) : FormSmall .fin X H B f := by
  cases f with
  | atom pred args =>
    refine ⟨atom_fin hD pred args ho hh, fun e he hoe => rev_fin hX hH e hoe (fun σ hσ => ?_)⟩
    have := hh σ hσ
    simp only [Formula.Holds] at this
    obtain ⟨vs, h1, _⟩ := this
    obtain ⟨i, hi, rfl⟩ := List.mem_iff_getElem.1 he
    obtain ⟨w, _, hw⟩ := allEvalTo_get args vs h1 i _ (List.getElem?_eq_getElem hi)
    exact ⟨w, hw⟩
  | constraint e =>
    simp only [Formula.Ordinary] at ho
    simp only [Formula.Holds] at hh
    refine ⟨rev_fin hX hH e ho (fun σ hσ => ⟨_, hh σ hσ⟩), ?_⟩
    rintro a b rfl
    simp only [FExpr.Ordinary] at ho
    exact values_eq ho.1 ho.2 hh
  | _ => trivial

/-- An accepted rule without aggregations derives finitely many facts. -/
theorem checkRule_sound (hX : X.Proper) (hD : FiniteDB B D) (demand : List Bool) (args : List (FExpr F)) (body : Formula F)
    (hne : body.NonEmpty) (ho : body.Ordinary B) (ha : FExpr.AllOrdinary args) (bs : List Name) (h : checkRule B demand args body = .ok bs)
    (Q : Set (Val F)) (hQ : Q.Finite) :
    {vs | DerivesProper X D G V args body vs ∧ ∀ i : Nat, demand[i]? = some true → ∀ v, vs[i]? = some v → v ∈ Q}.Finite := by
  cases hcs : fromFormula body with
  | none => simp [checkRule, checkBody, hcs] at h
  | some cs =>
    have hord := fromFormula_mem (Q := fun f => f.Ordinary B) (fun fs hf f hm => allOrdinary_mem fs (by simpa [Formula.Ordinary] using hf) f hm)
      (fun fs hf f hm => allOrdinary_mem fs (by simpa [Formula.Ordinary] using hf) f hm) body ho cs hcs
    let S : ConjCtx F → Set (Name → Val F) := fun c => {σ | (∀ x, (σ x).Proper) ∧ c.Holds X D G V σ ∧
        ∃ vs, FExpr.AllEvalTo X σ args vs ∧ ∀ i : Nat, demand[i]? = some true → ∀ v, vs[i]? = some v → v ∈ Q}
    have key : ∀ c ∈ cs, {vs | ∃ σ ∈ S c, FExpr.AllEvalTo X σ args vs}.Finite := by
      intro c hc
      refine rule_small (K := .fin) (D := D) (G := G) (V := V) demand args body ho ha bs h cs hcs c hc (fun σ hσ => hσ.2.1) ?_ ?_ ?_ ?_
      · intro f hf
        exact form_fin hX (fun σ hσ => hσ.1) hD f (hord c hc f (by simp [hf])) (fun σ hσ => hσ.2.1 f (by simp [hf]))
      · rintro σ ⟨_, _, vs, hvs, _⟩
        exact ⟨vs, hvs⟩
      · intro e he
        refine rev_fin hX (fun σ hσ => hσ.1) e ((allOrdinary_iff args).1 ha e he) ?_
        rintro σ ⟨_, _, vs, hvs, _⟩
        obtain ⟨i, hi, rfl⟩ := List.mem_iff_getElem.1 he
        obtain ⟨w, _, hw⟩ := allEvalTo_get args vs hvs i _ (List.getElem?_eq_getElem hi)
        exact ⟨w, hw⟩
      · intro i e hi he
        refine hQ.subset ?_
        rintro v ⟨σ, ⟨_, _, vs, hvs, hq⟩, hv⟩
        obtain ⟨w, hw1, hw⟩ := allEvalTo_get args vs hvs i e he
        rw [evalsTo_unique e ((allOrdinary_iff args).1 ha e (List.mem_of_getElem? he)) v w hv hw]
        exact hq i hi w hw1
    have hfin : {vs | ∃ c ∈ cs, vs ∈ {vs | ∃ σ ∈ S c, FExpr.AllEvalTo X σ args vs}}.Finite := by
      refine ((List.finite_toSet cs).biUnion key).subset ?_
      rintro vs ⟨c, hc, hv⟩
      exact Set.mem_biUnion hc hv
    refine hfin.subset ?_
    rintro vs ⟨⟨σ, p1, p2, p3⟩, p4⟩
    obtain ⟨c, hc, p2⟩ := (fromFormula_holds body hne cs hcs).1 p2
    exact ⟨c, hc, σ, ⟨p1, p2, vs, p3, p4⟩, p3⟩

end
end Scallop.Front
