import Verif.Proof.Expr
import Verif.Props.Back

/-!
# Projection fusion: C33
-/

namespace Scallop

variable {F L O₁ O₂ T : Type}

/-- **C33 (partial)**: fusing adjacent projections preserves the results of a dataflow, tuple by tuple and with their tags, for every
meaning of the other operators, provided outer projections read whole components only and inner ones are never undefined
(`Flow.Fusable`). -/
theorem c33_partial (X : Ext F) (S : FlowSem F L O₁ O₂ T) (d d' : Flow F L O₁ O₂) (hf : d.Fusable X)
    (h : d.cascade none = some d') (r) (hr : d.results X S = some r) : d'.results X S = some r :=
  cascade_results d d' none hf (by simp) h r hr

/-- Composition of two expressions, on every tuple on which the inner one is defined: the inner one is not a tuple or the outer one reads
whole components only. -/
theorem c33_compose (X : Ext F) (inner outer fused : Expr F) (hs : inner.IsTuple → outer.Shallow)
    (h : Expr.compose inner outer = some fused) (t u : Tup (Val F)) (hu : inner.eval X t = .ok u) :
    fused.eval X t = outer.eval X u :=
  compose_eval hu outer fused hs h

/-- After fusion no projection is applied to a projection, and fusing again changes nothing. -/
theorem c33_normal (d d' : Flow F L O₁ O₂) (h : d.cascade none = some d') : d'.Fused ∧ d'.cascade none = some d' := by
  have := (cascade_fused d d' none h).1
  exact ⟨this, fused_cascade d' none this (by simp)⟩

private abbrev i (n : Int) : Val Empty := .int .i32 n

/-- The leaf `true` holds the tuple (1, 2) with tag 7. -/
def oneTuple : FlowSem Empty Bool Unit Unit Nat where
  leaf := fun b => some (if b then [⟨.tup [.val (i 1), .val (i 2)], 7⟩] else [])
  un := fun _ l => some l
  bin := fun _ a b => some (a ++ b)

/-- A chain of three projections: swap, add the columns, put a constant beside. -/
def chain : Flow Empty Bool Unit Unit :=
  .project (.project (.project (.leaf true) (.tuple [.access [1], .access [0]])) (.tuple [.bin .add (.access [0]) (.access [1]), .access [0]]))
    (.tuple [.access [1], .const (i 9), .access [0]])

example : chain.Fusable Back.noExt := by
  refine ⟨⟨⟨trivial, trivial⟩, ?_⟩, ?_⟩
  · refine ⟨fun _ => by simp [Expr.Shallow, Expr.accesses, Expr.accessesList], ?_, fun h => h.elim⟩
    intro t h
    simp only [Expr.eval, Expr.evalList] at h
    cases h1 : t.atPath [1] <;> cases h2 : t.atPath [0] <;> simp [h1, h2, Outcome.bind] at h
  · refine ⟨fun _ => by simp [Expr.Shallow, Expr.accesses, Expr.accessesList], ?_,
      fun _ => ⟨trivial, by simp [Expr.Shallow, Expr.accesses, Expr.accessesList]⟩⟩
    intro t h
    simp only [Expr.eval, Expr.evalList] at h
    cases h1 : t.atPath [0] with
    | none => simp [h1, Outcome.bind] at h
    | some a =>
      cases h2 : t.atPath [1] with
      | none => simp [h1, h2, Outcome.bind] at h
      | some b =>
        simp only [h1, h2, Outcome.bind] at h
        cases a with
        | tup _ => simp [asValue] at h
        | val x =>
          cases b with
          | tup _ => simp [asValue] at h
          | val y =>
            simp only [asValue] at h
            cases x <;> cases y <;> simp [evalBin, evalInt, evalFloat] at h
            all_goals first
              | (rename_i k n k' n'; by_cases hk : k = k' <;> simp [hk] at h)
              | (rename_i st _ _; cases st <;> simp at h)
              | (rename_i k n k' n'; exact n.elim)

example : chain.cascade none = some (.project (.leaf true)
    (.tuple [.access [1], .const (i 9), .bin .add (.access [1]) (.access [0])])) := by decide +kernel

/-- **C33 is false in general (1)**: a nested access into a projection that builds a nested tuple is composed in the wrong order. Projecting
(1, 2) to ((2, 1),) and then to component 0.1 gives 1; the fused projection panics. -/
theorem c33_nested_access :
    let d : Flow Empty Bool Unit Unit := .project (.project (.leaf true) (.tuple [.tuple [.access [1], .access [0]]])) (.access [0, 1])
    ∃ d', d.cascade none = some d' ∧ d.results Back.noExt oneTuple = some [⟨.val (i 1), 7⟩] ∧
      d'.results Back.noExt oneTuple = none := by
  refine ⟨.project (.leaf true) (.tuple [.access [1, 1], .access [1, 0]]), by decide +kernel, ?_, ?_⟩ <;> rfl

/-- **C33 is false in general (2)**: a tuple that an inner projection drops, because a column is undefined, is kept by the fused projection
when the outer one does not use that column. -/
theorem c33_undefined_column :
    let d : Flow Empty Bool Unit Unit := .project (.project (.leaf true) (.tuple [.access [0], .call "f" [.access [1]]])) (.tuple [.access [0]])
    ∃ d', d.cascade none = some d' ∧ d.results Back.noExt oneTuple = some [] ∧
      d'.results Back.noExt oneTuple = some [⟨.tup [.val (i 1)], 7⟩] := by
  refine ⟨.project (.leaf true) (.tuple [.access [0]]), by decide +kernel, ?_, ?_⟩ <;> rfl

end Scallop
