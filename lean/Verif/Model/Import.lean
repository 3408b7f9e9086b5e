import Mathlib.Data.List.Basic

/-!
# Imports

Models the compilation of a source with its imports, `/repo/core/src/compiler/front/compile.rs` 220-365. A path is a canonical path; how an import is resolved relative to the
importing file (`source/source.rs` 15-22) is part of the file system here. A parsed file is its list of imports and its other items; parsing is not modelled, and the transformations and
analyses of the items of one source are a condition on the items compiled before (see the other models for what they do).
-/

namespace Scallop.Import

/-- What is read of a file: `none` if it cannot be opened, `some none` if it cannot be parsed, otherwise its imports and its other items. -/
abbrev Files (Path Item : Type) := Path → Option (Option (List Path × List Item))

/-- Models what matters of `FrontContext` (`compile.rs` 18-47): imported files and compiled items. -/
structure Ctx (Path Item : Type) where
  imported : List Path
  items : List Item

/-- Models `dyn Source` (`source/source.rs`): files have a path, strings have none. -/
structure Source (Path Item : Type) where
  path : Option Path
  content : Option (List Path × List Item)

/-- The errors of a compilation; `outOfFuel` is not an error of the program, it stands for a recursion that has not ended yet. -/
inductive Err (Path : Type) where
  | parse
  | already (p : Path)
  | cannotOpen (p : Path)
  | rejected
  | outOfFuel

variable {Path Item : Type} [DecidableEq Path]

/-- Models `process_imports` (`compile.rs` 335-357) with `is_imported` (365-371); `comp` compiles a source in a context. -/
def importAll (fs : Files Path Item) (comp : Ctx Path Item → Source Path Item → Except (Err Path) (Ctx Path Item)) :
    Ctx Path Item → List Path → Except (Err Path) (Ctx Path Item)
  | c, [] => .ok c
  | c, p :: ps =>
    if p ∈ c.imported then .error (.already p)
    else match fs p with
      | none => .error (.cannotOpen p)
      | some content => (comp c ⟨some p, content⟩).bind (fun c' => importAll fs comp c' ps)

/-- Models `add_import` (`compile.rs` 359-363). -/
def Ctx.addImport (c : Ctx Path Item) : Option Path → Ctx Path Item
  | some p => { c with imported := p :: c.imported }
  | none => c

/-- Models `compile_source_with_parser_and_annotator` (`compile.rs` 220-333): on a copy of the context, parse, register the source, compile its imports, analyse and add the items.
The first argument bounds the depth of the recursion; `accept` says whether the analyses find no errors in the new items after the others. -/
def compile (fs : Files Path Item) (accept : List Item → List Item → Bool) : Nat → Ctx Path Item → Source Path Item → Except (Err Path) (Ctx Path Item)
  | 0, _, _ => .error .outOfFuel
  | n + 1, c, s =>
    match s.content with
    | none => .error .parse
    | some (imports, items) =>
      (importAll fs (compile fs accept n) (c.addImport s.path) imports).bind (fun c' =>
        if accept c'.items items then .ok { c' with items := c'.items ++ items } else .error .rejected)

/-- A history of calls of `compile_source` on one context (`compile.rs` 144-152, 326-327): a call that fails leaves the context as it was. -/
def compileMany (comp : Ctx Path Item → Source Path Item → Except (Err Path) (Ctx Path Item)) : Ctx Path Item → List (Source Path Item) → Ctx Path Item
  | c, [] => c
  | c, s :: ss => compileMany comp (match comp c s with | .ok c' => c' | .error _ => c) ss

end Scallop.Import
