import Mathlib.Data.Finite.Prod
import Verif.Proof.Boundness

/-!
# Boundness analysis: soundness
-/

namespace Scallop.Front

variable {F : Type}

mutual
/-- The subexpression at a path. -/
def FExpr.sub : FExpr F → Loc → Option (FExpr F)
  | e, [] => some e
  | .bin _ a _, 0 :: q => a.sub q
  | .bin _ _ b, 1 :: q => b.sub q
  | .un _ a, 0 :: q => a.sub q
  | .ite c _ _, 0 :: q => c.sub q
  | .ite _ t _, 1 :: q => t.sub q
  | .ite _ _ e, 2 :: q => e.sub q
  | .call _ args, i :: q => FExpr.subAll args i q
  | .new _ args, i :: q => FExpr.subAll args i q
  | _, _ => none
/-- The subexpression of the `i`-th expression. -/
def FExpr.subAll : List (FExpr F) → Nat → Loc → Option (FExpr F)
  | [], _, _ => none
  | e :: _, 0, q => e.sub q
  | _ :: es, i + 1, q => FExpr.subAll es i q
end

theorem subAll_eq : ∀ (es : List (FExpr F)) (i : Nat) (q : Loc), FExpr.subAll es i q = es[i]?.bind (fun e => e.sub q)
  | [], i, q => by simp [FExpr.subAll]
  | e :: es, 0, q => by simp [FExpr.subAll]
  | e :: es, i + 1, q => by simp [FExpr.subAll, subAll_eq es i q]

theorem sub_nil (e : FExpr F) : e.sub [] = some e := by cases e <;> rfl

theorem allOrdinary_iff : ∀ es : List (FExpr F), FExpr.AllOrdinary es ↔ ∀ e ∈ es, e.Ordinary
  | [] => by simp [FExpr.AllOrdinary]
  | e :: es => by simp [FExpr.AllOrdinary, allOrdinary_iff es]

theorem allEvalTo_length {X : Ext F} {σ : Name → Val F} : ∀ (es : List (FExpr F)) (vs : List (Val F)), FExpr.AllEvalTo X σ es vs → vs.length = es.length
  | [], vs, h => by simp only [FExpr.AllEvalTo] at h; simp [h]
  | e :: es, vs, h => by
    simp only [FExpr.AllEvalTo] at h
    obtain ⟨w, ws, rfl, _, h⟩ := h
    simp [allEvalTo_length es ws h]

theorem allEvalTo_get {X : Ext F} {σ : Name → Val F} : ∀ (es : List (FExpr F)) (vs : List (Val F)), FExpr.AllEvalTo X σ es vs →
    ∀ (i : Nat) (e : FExpr F), es[i]? = some e → ∃ v, vs[i]? = some v ∧ e.EvalsTo X σ v
  | [], vs, h, i, e, he => by simp at he
  | e :: es, vs, h, i, e', he => by
    simp only [FExpr.AllEvalTo] at h
    obtain ⟨w, ws, rfl, h1, h⟩ := h
    cases i with
    | zero => simp at he; subst he; exact ⟨w, by simp, h1⟩
    | succ i => simpa using allEvalTo_get es ws h i e' (by simpa using he)

mutual
/-- Ordinary expressions have at most one value. -/
theorem evalsTo_unique {X : Ext F} {σ : Name → Val F} : ∀ (e : FExpr F), e.Ordinary → ∀ v w, e.EvalsTo X σ v → e.EvalsTo X σ w → v = w
  | .const c, _, v, w, h1, h2 => by simp only [FExpr.EvalsTo] at h1 h2; rw [h1, h2]
  | .var x, _, v, w, h1, h2 => by simp only [FExpr.EvalsTo] at h1 h2; rw [h1, h2]
  | .wild, h, _, _, _, _ => by simp [FExpr.Ordinary] at h
  | .bin op a b, h, v, w, h1, h2 => by
    simp only [FExpr.EvalsTo] at h1 h2
    simp only [FExpr.Ordinary] at h
    obtain ⟨x, y, p1, p2, p3⟩ := h1
    obtain ⟨x', y', q1, q2, q3⟩ := h2
    rw [evalsTo_unique a h.1 x x' p1 q1, evalsTo_unique b h.2 y y' p2 q2, q3] at p3
    exact (Outcome.ok.inj p3).symm
  | .un op a, h, v, w, h1, h2 => by
    simp only [FExpr.EvalsTo] at h1 h2
    simp only [FExpr.Ordinary] at h
    obtain ⟨x, p1, p3⟩ := h1
    obtain ⟨x', q1, q3⟩ := h2
    rw [evalsTo_unique a h x x' p1 q1, q3] at p3
    exact (Outcome.ok.inj p3).symm
  | .ite c t e, h, v, w, h1, h2 => by
    simp only [FExpr.EvalsTo] at h1 h2
    simp only [FExpr.Ordinary] at h
    obtain ⟨b, x, y, p1, p2, p3, p4⟩ := h1
    obtain ⟨b', x', y', q1, q2, q3, q4⟩ := h2
    have hb := evalsTo_unique c h.1 _ _ p1 q1
    simp only [Val.bool.injEq] at hb
    rw [evalsTo_unique t h.2.1 x x' p2 q2, evalsTo_unique e h.2.2 y y' p3 q3, hb] at p4
    rw [p4, q4]
  | .call f args, h, v, w, h1, h2 => by
    simp only [FExpr.EvalsTo] at h1 h2
    simp only [FExpr.Ordinary] at h
    obtain ⟨x, p1, p3⟩ := h1
    obtain ⟨x', q1, q3⟩ := h2
    rw [allEvalTo_unique args h x x' p1 q1, q3] at p3
    exact (Outcome.ok.inj p3).symm
  | .new f args, h, v, w, h1, h2 => by
    simp only [FExpr.EvalsTo] at h1 h2
    simp only [FExpr.Ordinary] at h
    obtain ⟨x, p1, p3⟩ := h1
    obtain ⟨x', q1, q3⟩ := h2
    rw [p3, q3, allEvalTo_unique args h x x' p1 q1]
/-- The same for a list. -/
theorem allEvalTo_unique {X : Ext F} {σ : Name → Val F} : ∀ (es : List (FExpr F)), FExpr.AllOrdinary es → ∀ vs ws, FExpr.AllEvalTo X σ es vs →
    FExpr.AllEvalTo X σ es ws → vs = ws
  | [], _, vs, ws, h1, h2 => by simp only [FExpr.AllEvalTo] at h1 h2; rw [h1, h2]
  | e :: es, h, vs, ws, h1, h2 => by
    simp only [FExpr.AllEvalTo] at h1 h2
    simp only [FExpr.AllOrdinary] at h
    obtain ⟨x, xs, rfl, p1, p2⟩ := h1
    obtain ⟨y, ys, rfl, q1, q2⟩ := h2
    rw [evalsTo_unique e h.1 x y p1 q1, allEvalTo_unique es h.2 xs ys p2 q2]
end

/-- Values of ordinary expressions are proper. -/
theorem evalsTo_proper {X : Ext F} (hX : X.Proper) {σ : Name → Val F} (hσ : ∀ x, (σ x).Proper) :
    ∀ (e : FExpr F), e.Ordinary → ∀ v, e.EvalsTo X σ v → v.Proper
  | .const c, h, v, h1 => by simp only [FExpr.EvalsTo] at h1; rw [h1]; simpa [FExpr.Ordinary] using h
  | .var x, _, v, h1 => by simp only [FExpr.EvalsTo] at h1; rw [h1]; exact hσ x
  | .wild, h, _, _ => by simp [FExpr.Ordinary] at h
  | .bin op a b, h, v, h1 => by
    simp only [FExpr.EvalsTo] at h1
    simp only [FExpr.Ordinary] at h
    obtain ⟨x, y, p1, p2, p3⟩ := h1
    exact evalBin_proper (evalsTo_proper hX hσ a h.1 x p1) p3
  | .un op a, h, v, h1 => by
    simp only [FExpr.EvalsTo] at h1
    simp only [FExpr.Ordinary] at h
    obtain ⟨x, p1, p3⟩ := h1
    exact evalUn_proper hX (evalsTo_proper hX hσ a h x p1) p3
  | .ite c t e, h, v, h1 => by
    simp only [FExpr.EvalsTo] at h1
    simp only [FExpr.Ordinary] at h
    obtain ⟨b, x, y, p1, p2, p3, p4⟩ := h1
    cases b
    · simp only [Bool.false_eq_true, if_false] at p4
      rw [p4]; exact evalsTo_proper hX hσ e h.2.2 y p3
    · simp only [if_true] at p4
      rw [p4]; exact evalsTo_proper hX hσ t h.2.1 x p2
  | .call f args, h, v, h1 => by
    simp only [FExpr.EvalsTo] at h1
    obtain ⟨x, p1, p3⟩ := h1
    exact hX.call _ _ _ p3
  | .new f args, h, v, h1 => by
    simp only [FExpr.EvalsTo] at h1
    obtain ⟨x, p1, p3⟩ := h1
    rw [p3]; trivial

/-! ## Few values -/

/-- What is needed of a notion of small sets for the analysis to be sound for it. -/
structure Small where
  is : ∀ {α : Type}, Set α → Prop
  subset : ∀ {α : Type} {s t : Set α}, is s → t ⊆ s → is t
  single : ∀ {α : Type} (a : α), is {a}
  image : ∀ {α β : Type} {s : Set α} (f : α → β), is s → is (f '' s)
  prod : ∀ {α β : Type} {s : Set α} {t : Set β}, is s → is t → is (s ×ˢ t)

/-- Finite sets. -/
def Small.fin : Small where
  is s := s.Finite
  subset h h' := Set.Finite.subset h h'
  single a := Set.finite_singleton a
  image f h := Set.Finite.image f h
  prod h h' := Set.Finite.prod h h'

/-- Sets with at most one element. -/
def Small.one : Small where
  is s := s.Subsingleton
  subset h h' := Set.Subsingleton.anti h h'
  single a := Set.subsingleton_singleton
  image f h := Set.Subsingleton.image h f
  prod h h' := fun x hx y hy => Prod.ext (h hx.1 hy.1) (h' hx.2 hy.2)

section
variable {K : Small} {X : Ext F} {H : Set (Name → Val F)}

/-- The expression has a value under all the assignments. -/
def Defined (X : Ext F) (H : Set (Name → Val F)) (e : FExpr F) : Prop := ∀ σ ∈ H, ∃ v, e.EvalsTo X σ v

theorem values_bin {op : BinOp} {a b : FExpr F} (ha : K.is (valuesOf X H a)) (hb : K.is (valuesOf X H b)) : K.is (valuesOf X H (.bin op a b)) := by
  have := K.image (fun p : Val F × Val F => match evalBin X .run op p.1 p.2 with | .ok v => v | _ => p.1) (K.prod ha hb)
  refine K.subset this ?_
  rintro v ⟨σ, hσ, h⟩
  simp only [FExpr.EvalsTo] at h
  obtain ⟨x, y, h1, h2, h3⟩ := h
  exact ⟨(x, y), ⟨⟨σ, hσ, h1⟩, ⟨σ, hσ, h2⟩⟩, by simp [h3]⟩

theorem values_un {op : UnOp} {a : FExpr F} (ha : K.is (valuesOf X H a)) : K.is (valuesOf X H (.un op a)) := by
  have := K.image (fun p => match evalUn X .run op p with | .ok v => v | _ => p) ha
  refine K.subset this ?_
  rintro v ⟨σ, hσ, h⟩
  simp only [FExpr.EvalsTo] at h
  obtain ⟨x, h1, h3⟩ := h
  exact ⟨x, ⟨σ, hσ, h1⟩, by simp [h3]⟩

theorem values_ite {c t e : FExpr F} (hc : K.is (valuesOf X H c)) (ht : K.is (valuesOf X H t)) (he : K.is (valuesOf X H e)) :
    K.is (valuesOf X H (.ite c t e)) := by
  have := K.image (fun p : Val F × Val F × Val F => match p.1 with | .bool true => p.2.1 | _ => p.2.2) (K.prod hc (K.prod ht he))
  refine K.subset this ?_
  rintro v ⟨σ, hσ, h⟩
  simp only [FExpr.EvalsTo] at h
  obtain ⟨b, x, y, h1, h2, h3, h4⟩ := h
  refine ⟨(.bool b, x, y), ⟨⟨σ, hσ, h1⟩, ⟨σ, hσ, h2⟩, ⟨σ, hσ, h3⟩⟩, ?_⟩
  cases b <;> simpa using h4.symm

/-- The values of a list of expressions. -/
theorem values_all : ∀ es : List (FExpr F), (∀ e ∈ es, K.is (valuesOf X H e)) → K.is {vs | ∃ σ ∈ H, FExpr.AllEvalTo X σ es vs}
  | [], _ => by
    refine K.subset (K.single []) ?_
    rintro vs ⟨σ, _, h⟩
    simpa [FExpr.AllEvalTo] using h
  | e :: es, h => by
    have h1 := h e (by simp)
    have h2 := values_all es (fun e' he => h e' (by simp [he]))
    refine K.subset (K.image (fun p : Val F × List (Val F) => p.1 :: p.2) (K.prod h1 h2)) ?_
    rintro vs ⟨σ, hσ, hv⟩
    simp only [FExpr.AllEvalTo] at hv
    obtain ⟨w, ws, rfl, p1, p2⟩ := hv
    exact ⟨(w, ws), ⟨⟨σ, hσ, p1⟩, ⟨σ, hσ, p2⟩⟩, rfl⟩

theorem values_call {f : String} {args : List (FExpr F)} (ha : ∀ e ∈ args, K.is (valuesOf X H e)) : K.is (valuesOf X H (.call f args)) := by
  have := K.image (fun p => match X.call f p with | .ok v => v | _ => .bool true) (values_all args ha)
  refine K.subset this ?_
  rintro v ⟨σ, hσ, h⟩
  simp only [FExpr.EvalsTo] at h
  obtain ⟨xs, h1, h3⟩ := h
  exact ⟨xs, ⟨σ, hσ, h1⟩, by simp [h3]⟩

theorem values_new {f : String} {args : List (FExpr F)} (ha : ∀ e ∈ args, K.is (valuesOf X H e)) : K.is (valuesOf X H (.new f args)) := by
  have := K.image (fun p => (Val.entity (X.encode ("adt#" ++ f) p) : Val F)) (values_all args ha)
  refine K.subset this ?_
  rintro v ⟨σ, hσ, h⟩
  simp only [FExpr.EvalsTo] at h
  obtain ⟨xs, h1, h3⟩ := h
  exact ⟨xs, ⟨σ, hσ, h1⟩, h3.symm⟩

mutual
/-- An expression has few values if all its variables have. -/
theorem values_of_vars : ∀ e : FExpr F, e.Ordinary → (∀ x ∈ e.usedVars, K.is (valuesOf X H (.var x))) → K.is (valuesOf X H e)
  | .const c, _, _ => by
    refine K.subset (K.single c) ?_
    rintro v ⟨σ, _, h⟩
    simpa [FExpr.EvalsTo] using h
  | .var x, _, h => h x (by simp [FExpr.usedVars])
  | .wild, h, _ => by simp [FExpr.Ordinary] at h
  | .bin op a b, h, hv => by
    simp only [FExpr.Ordinary] at h
    simp only [FExpr.usedVars, List.mem_append] at hv
    exact values_bin (values_of_vars a h.1 (fun x hx => hv x (.inl hx))) (values_of_vars b h.2 (fun x hx => hv x (.inr hx)))
  | .un op a, h, hv => by
    simp only [FExpr.Ordinary] at h
    simp only [FExpr.usedVars] at hv
    exact values_un (values_of_vars a h hv)
  | .ite c t e, h, hv => by
    simp only [FExpr.Ordinary] at h
    simp only [FExpr.usedVars, List.mem_append] at hv
    exact values_ite (values_of_vars c h.1 (fun x hx => hv x (.inl hx))) (values_of_vars t h.2.1 (fun x hx => hv x (.inr (.inl hx)))) (values_of_vars e h.2.2 (fun x hx => hv x (.inr (.inr hx))))
  | .call f args, h, hv => by
    simp only [FExpr.Ordinary] at h
    simp only [FExpr.usedVars] at hv
    exact values_call (values_of_varsAll args h hv)
  | .new f args, h, hv => by
    simp only [FExpr.Ordinary] at h
    simp only [FExpr.usedVars] at hv
    exact values_new (values_of_varsAll args h hv)
/-- The same for a list. -/
theorem values_of_varsAll : ∀ es : List (FExpr F), FExpr.AllOrdinary es → (∀ x ∈ FExpr.usedVarsAll es, K.is (valuesOf X H (.var x))) →
    ∀ e ∈ es, K.is (valuesOf X H e)
  | [], _, _ => by simp
  | e :: es, h, hv => by
    simp only [FExpr.AllOrdinary] at h
    simp only [FExpr.usedVarsAll, List.mem_append] at hv
    have h1 := values_of_vars e h.1 (fun x hx => hv x (.inl hx))
    have h2 := values_of_varsAll es h.2 (fun x hx => hv x (.inr hx))
    intro e' he
    rcases List.mem_cons.1 he with rfl | he
    · exact h1
    · exact h2 e' he
end

/-- An operand of a sum has few values if the other one and the sum have, for all sums in the expression. -/
def Rev (K : Small) (X : Ext F) (H : Set (Name → Val F)) (e : FExpr F) : Prop :=
  ∀ q op a b, e.sub q = some (.bin op a b) → isAddSub op = true →
    (K.is (valuesOf X H a) → K.is (valuesOf X H (.bin op a b)) → K.is (valuesOf X H b)) ∧
    (K.is (valuesOf X H b) → K.is (valuesOf X H (.bin op a b)) → K.is (valuesOf X H a))

/-- Of two expressions that are equal, one has few values if the other has. -/
def RevEq (K : Small) (X : Ext F) (H : Set (Name → Val F)) (a b : FExpr F) : Prop :=
  (K.is (valuesOf X H a) → K.is (valuesOf X H b)) ∧ (K.is (valuesOf X H b) → K.is (valuesOf X H a))

/-- The arguments of an atom have few values: all of them, or, if it is an atom of a foreign predicate, the outputs if the inputs have. -/
def AtomSmall (K : Small) (X : Ext F) (H : Set (Name → Val F)) (B : Bindings) (pred : String) (args : List (FExpr F)) : Prop :=
  match B pred with
  | none => ∀ e ∈ args, e.Ordinary → K.is (valuesOf X H e)
  | some (_, nb) => (∀ e ∈ args.take nb, K.is (valuesOf X H e)) → ∀ e ∈ args.drop nb, e.Ordinary → K.is (valuesOf X H e)

variable [Finite F] (hX : X.Proper) (hH : ∀ σ ∈ H, ∀ x, (σ x).Proper)
include hX hH

theorem values_addSub_right {op : BinOp} (hop : isAddSub op = true) {a b : FExpr F} (oa : a.Ordinary) (ob : b.Ordinary) (hd : Defined X H (.bin op a b))
    (ha : (valuesOf X H a).Finite) (he : (valuesOf X H (.bin op a b)).Finite) : (valuesOf X H b).Finite := by
  refine Set.Finite.subset ((ha.prod he).biUnion (fun p _ => addSub_finite_right X hop p.1 p.2)) ?_
  rintro v ⟨σ, hσ, h⟩
  obtain ⟨z, hz⟩ := hd σ hσ
  have hz' := hz
  simp only [FExpr.EvalsTo] at hz
  obtain ⟨x, y, h1, h2, h3⟩ := hz
  have := evalsTo_unique b ob v y h h2
  subst this
  simp only [Set.mem_iUnion]
  exact ⟨(x, z), ⟨⟨σ, hσ, h1⟩, ⟨σ, hσ, hz'⟩⟩, evalsTo_proper hX (hH σ hσ) b ob v h, h3⟩

theorem values_addSub_left {op : BinOp} (hop : isAddSub op = true) {a b : FExpr F} (oa : a.Ordinary) (ob : b.Ordinary) (hd : Defined X H (.bin op a b))
    (ha : (valuesOf X H b).Finite) (he : (valuesOf X H (.bin op a b)).Finite) : (valuesOf X H a).Finite := by
  refine Set.Finite.subset ((ha.prod he).biUnion (fun p _ => addSub_finite_left X hop p.1 p.2)) ?_
  rintro v ⟨σ, hσ, h⟩
  obtain ⟨z, hz⟩ := hd σ hσ
  have hz' := hz
  simp only [FExpr.EvalsTo] at hz
  obtain ⟨x, y, h1, h2, h3⟩ := hz
  have := evalsTo_unique a oa v x h h1
  subst this
  simp only [Set.mem_iUnion]
  exact ⟨(y, z), ⟨⟨σ, hσ, h2⟩, ⟨σ, hσ, hz'⟩⟩, evalsTo_proper hX (hH σ hσ) a oa v h, h3⟩

omit hX hH in
theorem values_eq {a b : FExpr F} (oa : a.Ordinary) (ob : b.Ordinary) (hd : ∀ σ ∈ H, (FExpr.bin .eq a b).EvalsTo X σ (.bool true)) :
    ((valuesOf X H a).Finite → (valuesOf X H b).Finite) ∧ ((valuesOf X H b).Finite → (valuesOf X H a).Finite) := by
  constructor
  · intro ha
    refine Set.Finite.subset (ha.biUnion (fun p _ => eq_finite X p)) ?_
    rintro v ⟨σ, hσ, h⟩
    have hz := hd σ hσ
    simp only [FExpr.EvalsTo] at hz
    obtain ⟨x, y, h1, h2, h3⟩ := hz
    have := evalsTo_unique b ob v y h h2
    subst this
    simp only [Set.mem_iUnion]
    exact ⟨x, ⟨σ, hσ, h1⟩, .inl h3⟩
  · intro hb
    refine Set.Finite.subset (hb.biUnion (fun p _ => eq_finite X p)) ?_
    rintro v ⟨σ, hσ, h⟩
    have hz := hd σ hσ
    simp only [FExpr.EvalsTo] at hz
    obtain ⟨x, y, h1, h2, h3⟩ := hz
    have := evalsTo_unique a oa v x h h1
    subst this
    simp only [Set.mem_iUnion]
    exact ⟨y, ⟨σ, hσ, h2⟩, .inr h3⟩

end
end Scallop.Front
