import Verif.Props.TaggedRule
import Verif.Props.Front
import Verif.Props.Plan
import Verif.Proof.Proofs

/-!
# Property theorems C96: tagged rules, compilation and counterexamples
-/

namespace Scallop.Tagged

open DnfCtx (HeapElem)
open Scallop.Front (FExpr Formula Name)

/-! ### The transformation -/

/-- The body of a transformed rule holds, for some value of the added variable, exactly if the body of the rule holds and the predicate of the rule
accepts the value of the tag. -/
theorem c96_transformed {F : Type} (X : Ext F) (hX : X.ExactFloats) (D : Front.DB F) (G : Front.Aggs F) (V : Name → Prop) (pred : String) (tag : FExpr F) (body : Formula F)
    (hV : ¬ V (tagVar pred)) (ht : tag.NamesIn (· ≠ tagVar pred)) (hb : body.NamesIn (· ≠ tagVar pred)) (σ : Name → Val F) :
    (∃ τ : Name → Val F, (∀ x, x ≠ tagVar pred → τ x = σ x) ∧ (tagBody pred tag body).Holds X D G V τ) ↔
      body.Holds X D G V σ ∧ ∃ x, tag.EvalsTo X σ x ∧ D pred [x] := by
  have hVP : ∀ x, V x → x ≠ tagVar pred := fun x hx he => hV (he ▸ hx)
  have hiff : ∀ τ : Name → Val F, (tagBody pred tag body).Holds X D G V τ ↔
      (tag.EvalsTo X τ (τ (tagVar pred)) ∧ D pred [τ (tagVar pred)]) ∧ body.Holds X D G V τ := by
    intro τ
    simp only [tagBody, Formula.Holds, Formula.Holds.allHold, and_true, FExpr.EvalsTo, FExpr.AllEvalTo]
    constructor
    · rintro ⟨⟨⟨x, y, rfl, hy, h⟩, vs, ⟨w, ws, rfl, rfl, rfl⟩, hD⟩, hb⟩
      have := (Back.evalBin_eq_iff hX (τ (tagVar pred)) y).mp h
      rw [this] at hD ⊢
      exact ⟨⟨hy, hD⟩, hb⟩
    · rintro ⟨⟨h1, h2⟩, h3⟩
      exact ⟨⟨⟨_, _, rfl, h1, (Back.evalBin_eq_iff hX _ _).mpr rfl⟩, [τ (tagVar pred)], ⟨_, _, rfl, rfl, rfl⟩, h2⟩, h3⟩
  constructor
  · rintro ⟨τ, hτ, h⟩
    rw [hiff] at h
    refine ⟨(Front.holds_congr (P := (· ≠ tagVar pred)) hτ body hb V hVP).mp h.2, _, (Front.evalsTo_congr (P := (· ≠ tagVar pred)) hτ tag ht _).mp h.1.1, h.1.2⟩
  · rintro ⟨h, x, hx, hD⟩
    have hτ : ∀ y, y ≠ tagVar pred → Function.update σ (tagVar pred) x y = σ y := fun y hy => Function.update_of_ne hy _ _
    refine ⟨Function.update σ (tagVar pred) x, hτ, (hiff _).mpr ?_⟩
    rw [Function.update_self]
    exact ⟨⟨(Front.evalsTo_congr (P := (· ≠ tagVar pred)) hτ tag ht _).mpr hx, hD⟩, (Front.holds_congr (P := (· ≠ tagVar pred)) hτ body hb V hVP).mpr h⟩

/-- Different rules get different predicates, if they have different numbers and heads without `#`; a head that is not a single atom is a panic. -/
theorem c96_head (head : Option String) (id : Nat) : tagPredicate head id = none ↔ head = none := by
  cases head <;> simp [tagPredicate]

/-! ### Types -/

/-- The types that the compiler accepts for a tag. -/
theorem c96_tag_types (t : Ty.VTy) : (targetTagType (.base t)).isSome ↔
    t.isNumeric ∨ t = .char ∨ t = .bool ∨ t = .str ∨ t = .string := by
  cases t with
  | int k => cases k <;> decide
  | float k => cases k <;> decide
  | _ => decide

/-- The types of tags that can be evaluated are few: for every other accepted type the program panics at its first tuple. -/
theorem c96_evaluate (t : Ty.VTy) (h : (targetTagType (.base t)).isSome) :
    tagEvaluate t = .evaluated ↔ t = .int .i8 ∨ t = .int .i32 ∨ t = .int .usize ∨ t = .float .f32 ∨ t = .char ∨ t = .string := by
  cases t with
  | int k => cases k <;> decide
  | float k => cases k <;> decide
  | _ => decide

/-- In particular a tag of type `f64` or `bool`, the two types named first by the compiler, panics. -/
theorem c96_types_false : ∃ t ∈ tagTypes, targetTagType (.base t) = some t ∧ tagEvaluate t = .panic := ⟨.float .f64, by decide, by decide, by decide⟩
example : targetTagType (.base .bool) = some .bool ∧ tagEvaluate .bool = .panic ∧ targetTagType (.base .symbol) = none ∧
    targetTagType .float = some (.float .f32) ∧ tagEvaluate (.float .f32) = .evaluated ∧
    targetTagType .unsigned = some (.int .u32) ∧ tagEvaluate (.int .u32) = .panic := by decide

/-! ### The plan -/

open Scallop.Plan Scallop.Back in
/-- Where events are made: in the plan of a rule with a tag that is a constant or a variable (no constraints, aggregations and other foreign predicates) the
tag predicate stands over the first atom in the order of the joins, below all others, if this atom binds the variable. So there is one event for every
tuple of this atom, not for every tuple of the body. Otherwise it waits for a later atom. -/
theorem c96_planned {F : Type} (c : Ctx F) (i : Nat) (rest : List Nat) (a : Atom String F) (pred : String) (t : Term String F)
    (hr : c.reduces = []) (hc : c.cons = []) (ha : c.assigns = []) (hf : c.fps = [{ predicate := pred, args := [t] }])
    (hn : c.numBounded pred = some 1) (hi : c.pos[i]? = some a) :
    firstFringe c (i :: rest) = if termBounded (atomVars a) t then
        some (⟨[], [], []⟩, .fpConstraint (atomVars a) (.ground a) { predicate := pred, args := [t] }, rest)
      else some (⟨[], [], [{ predicate := pred, args := [t] }]⟩, .ground a, rest) := by
  by_cases h : termBounded (atomVars a) t = true
  · simp [firstFringe, hr, hc, ha, hf, hi, tryApplyAll, tryApply, tryRound, tryAssigns, tryCons, tryFps, fpInfo, hn, applyFp,
      Plan.bounded, h, Pending.size]
  · simp [firstFringe, hr, hc, ha, hf, hi, tryApplyAll, tryApply, tryRound, tryAssigns, tryCons, tryFps, fpInfo, hn,
      Plan.bounded, h, Pending.size]

open Scallop.Plan Scallop.Back in
/-- The same for a tag that is computed, from constants and variables of the first atom. -/
theorem c96_planned_expr {F : Type} (c : Ctx F) (i : Nat) (rest : List Nat) (a : Atom String F) (v pred : String) (e : AExpr String F)
    (hr : c.reduces = []) (hc : c.cons = []) (ha : c.assigns = [(v, e)]) (hf : c.fps = [{ predicate := pred, args := [.var v] }])
    (hn : c.numBounded pred = some 1) (hi : c.pos[i]? = some a) (he : ∀ x ∈ e.vars, x ∈ atomVars a) (hnew : isNew e = false) (hv : v ∉ atomVars a) :
    firstFringe c (i :: rest) = some (⟨[], [], []⟩,
      .fpConstraint (atomVars a ++ [v]) (.project (atomVars a ++ [v]) (.ground a) [(v, e)]) { predicate := pred, args := [.var v] }, rest) := by
  have hap : assignApplies (atomVars a) (v, e) = true := by simp [assignApplies, hnew, hv]; exact he
  simp [firstFringe, hr, hc, ha, hf, hi, tryApplyAll, tryApply, tryRound, tryAssigns, tryCons, tryFps, fpInfo, hn, applyFp, List.filter_cons, hap,
    Plan.bounded, termBounded, Pending.size]

/-- `0.5 :: p(x, z) :- q(x, y), s(y, z)` and `not true :: p(x, z) :- q(x, y), s(y, z)` -/
example : open Scallop.Plan Scallop.Back in
    (Ctx.fromRule (fun p => if p = "rt#p#0" then some 1 else none) [.atom (⟨"rt#p#0", [.const (.bool true)]⟩ : Atom String Unit),
    (.atom ⟨"q", [.var "x", .var "y"]⟩ : Lit String Unit Reduce), .atom ⟨"s", [.var "y", .var "z"]⟩]).bind (queryPlan testSearch) =
      some (.join (.fpConstraint ["x", "y"] (.ground ⟨"q", [.var "x", .var "y"]⟩) ⟨"rt#p#0", [.const (.bool true)]⟩) (.ground ⟨"s", [.var "y", .var "z"]⟩)) := by decide +kernel
open Scallop.Plan Scallop.Back in
example : (Ctx.fromRule (fun p => if p = "rt#p#0" then some 1 else none) [.assign "rt#p#0#var" (.un .not (.const (.bool true))), .atom (⟨"rt#p#0", [.var "rt#p#0#var"]⟩ : Atom String Unit),
    (.atom ⟨"q", [.var "x", .var "y"]⟩ : Lit String Unit Reduce), .atom ⟨"s", [.var "y", .var "z"]⟩]).bind (queryPlan testSearch) =
      some (.join (.fpConstraint ["x", "y", "rt#p#0#var"] (.project ["x", "y", "rt#p#0#var"] (.ground ⟨"q", [.var "x", .var "y"]⟩)
        [("rt#p#0#var", .un .not (.const (.bool true)))]) ⟨"rt#p#0", [.var "rt#p#0#var"]⟩) (.ground ⟨"s", [.var "y", .var "z"]⟩)) := by decide +kernel

end Scallop.Tagged
