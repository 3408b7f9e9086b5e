import Verif.Model.Loading
import Mathlib.Logic.Relation

/-!
# What compiling a source means

On contents only, without sharing: the step that one source makes after its imports have been loaded; loading of imports as a relation that
gives the order in which the sources are compiled; the import relation between sources.
-/

namespace Scallop.Compile

variable {I A R E : Type}

/-- The content of a context. -/
structure View (I A R : Type) where
  sources : List Src
  imported : List String
  items : List I
  preds : R
  nextId : Nat
  analysis : A

/-- The content of a context, in a heap. -/
def Ctx.view (h : Heap A) (c : Ctx I R) : Option (View I A R) :=
  (h.cells[c.analysis]?).map fun a => ⟨c.sources, c.imported, c.items, c.preds, c.nextId, a⟩

/-- A context that owns a cell of the heap. -/
def Ctx.Valid (h : Heap A) (c : Ctx I R) : Prop := c.analysis < h.cells.length ∧ 1 ≤ h.refs c.analysis

section
variable (L : Lang I A R E) (fs : Files)

/-- A source that imports nothing more is compiled: annotated, processed, analysed, transformed, analysed again, and its items added. -/
def View.step (v : View I A R) (src : Src) (ast : List I) : Except (List E) (View I A R) :=
  let an := L.annotate v.nextId v.sources.length ast
  match L.attrs v.analysis v.preds an.1 with
  | .error e => .error [e]
  | .ok ((a, preds), ast) =>
    let p := L.pre a ast
    if p.2.any L.isError then .error p.2
    else
      let t := L.transform p.1 ast
      let an' := L.annotate an.2 v.sources.length t.2
      let m := L.main t.1 preds an'.1
      if (p.2 ++ m.2.2).any L.isError then .error (p.2 ++ m.2.2)
      else .ok ⟨v.sources ++ [src], v.imported, v.items ++ an'.1, m.2.1, an'.2, m.1⟩

/-- The file of a source counts as imported. -/
def View.addImport (v : View I A R) (src : Src) : View I A R :=
  match src.path with
  | some p => { v with imported := fs.canon p :: v.imported }
  | none => v

mutual
/-- `Loads v src order v'`: compiling `src` takes the content `v` to `v'`; the sources compiled are `order`. The imports of a source are
loaded before it. -/
inductive Loads : View I A R → Src → List Src → View I A R → Prop
  | mk {v v1 v2 src ast order} : L.parse src.text = .ok ast → LoadsAll (v.addImport fs src) src (ast.filterMap L.importOf) order v1 →
      v1.step L src ast = .ok v2 → Loads v src (order ++ [src]) v2
/-- The same for a list of imports of a source: each must be a file that has not been imported before. -/
inductive LoadsAll : View I A R → Src → List String → List Src → View I A R → Prop
  | nil {v src} : LoadsAll v src [] [] v
  | cons {v v1 v2 src f rest text o1 o2} : fs.read (fs.resolve src.path f) = some text → fs.canon (fs.resolve src.path f) ∉ v.imported →
      Loads v ⟨some (fs.resolve src.path f), text⟩ o1 v1 → LoadsAll v1 src rest o2 v2 → LoadsAll v src (f :: rest) (o1 ++ o2) v2
end

/-- Sources compiled one after the other, as if they imported nothing. -/
inductive Steps : View I A R → List Src → View I A R → Prop
  | nil {v} : Steps v [] v
  | cons {v v1 v2 s ss ast} : L.parse s.text = .ok ast → v.step L s ast = .ok v1 → Steps v1 ss v2 → Steps v (s :: ss) v2

/-- The content but for the set of imported files. -/
def View.forget (v : View I A R) : View I A R := { v with imported := [] }

/-- The names that a source imports. -/
def importsOf (s : Src) : List String :=
  match L.parse s.text with
  | .ok ast => ast.filterMap L.importOf
  | .error _ => []

/-- The files that a source imports. -/
def targets (s : Src) : List String := (importsOf L s).map fun f => fs.canon (fs.resolve s.path f)

/-- The source `t` is a file that `s` imports. -/
def Imports (s t : Src) : Prop :=
  ∃ f ∈ importsOf L s, ∃ text, fs.read (fs.resolve s.path f) = some text ∧ t = ⟨some (fs.resolve s.path f), text⟩

/-- The file of a source, if it has one. -/
def fileOf (s : Src) : Option String := s.path.map fs.canon

end
end Scallop.Compile
