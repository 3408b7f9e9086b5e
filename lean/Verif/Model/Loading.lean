/-!
# The compiler context

Models `/repo/core/src/compiler/front/compile.rs` (216-374: compilation of a source, imports), the shared analysis
(`/repo/core/src/utils/copy_on_write.rs`, with `Rc` of `/repo/core/src/utils/pointer_family.rs`), and the compilation state of
`/repo/core/src/integrate/context.rs` (130-190, 423-475).

Simplified: the parser, the attribute processors, the analyses and the transformations are arbitrary functions; attribute processors that
act on the context change its analysis and its predicates only, and through `modify`; warnings are not printed; a path that exists can be
read.
-/

namespace Scallop.Compile

/-- Cells with their numbers of owners (`Rc`). -/
structure Heap (A : Type) where
  cells : List A
  refs : Nat → Nat

namespace Heap
variable {A : Type}

/-- One more owner of a cell (`Rc::clone`). -/
def clone (h : Heap A) (c : Nat) : Heap A := { h with refs := fun i => if i = c then h.refs i + 1 else h.refs i }

/-- One owner less (`Drop for Rc`). -/
def drop (h : Heap A) (c : Nat) : Heap A := { h with refs := fun i => if i = c then h.refs i - 1 else h.refs i }

/-- A new cell with one owner (`Rc::new`). -/
def alloc (h : Heap A) (a : A) : Heap A × Nat :=
  (⟨h.cells ++ [a], fun i => if i = h.cells.length then 1 else h.refs i⟩, h.cells.length)

/-- Models `CopyOnWrite::modify` (`copy_on_write.rs` 14-22): the content is copied, changed, and put into a new cell. `none` is a handle of
no cell. -/
def modify {O : Type} (h : Heap A) (c : Nat) (f : A → A × O) : Option (Heap A × Nat × O) :=
  match h.cells[c]? with
  | none => none
  | some a =>
    let r := h.alloc (f a).1
    some (r.1.drop c, r.2, (f a).2)

/-- Models `CopyOnWrite::modify_without_copy` (`copy_on_write.rs` 24-26) with `Rc::get_mut(..).unwrap()` (`pointer_family.rs`): `none` is
the panic for a cell with other owners. -/
def modifyInPlace {O : Type} (h : Heap A) (c : Nat) (f : A → A × O) : Option (Heap A × O) :=
  match h.cells[c]? with
  | none => none
  | some a => if h.refs c = 1 then some ({ h with cells := h.cells.set c (f a).1 }, (f a).2) else none

end Heap

/-- Models `trait Source` (`source/source.rs`): the path, if it is a file, and the text. -/
structure Src where
  path : Option String
  text : String
deriving DecidableEq

/-- Models `struct FrontContext` (`compile.rs` 19-46); `preds` is the registry of foreign predicates, `nextId` the state of the node
annotator, `analysis` a handle. -/
structure Ctx (I R : Type) where
  sources : List Src
  imported : List String
  items : List I
  preds : R
  nextId : Nat
  analysis : Nat

/-- The parts of the compiler that are left open: parsing, the file that an item imports, annotation with numbers from the next one on and
with the number of the source, attribute processors, the analyses before and after the transformations, the transformations, and which
messages are errors. -/
structure Lang (I A R E : Type) where
  parse : String → Except E (List I)
  importOf : I → Option String
  annotate : Nat → Nat → List I → List I × Nat
  attrs : A → R → List I → Except E ((A × R) × List I)
  pre : A → List I → A × List E
  transform : A → List I → A × List I
  main : A → R → List I → A × R × List E
  isError : E → Bool
  cycle : String → E
  notFound : String → E

/-- A file system: the text of a path, its canonical path, and the path that an import in a source refers to
(`Source::resolve_import_file_path`). -/
structure Files where
  read : String → Option String
  canon : String → String
  resolve : Option String → String → String

/-- How a compilation ends. -/
inductive Out (E : Type) where
  | ok (source : Nat)
  | err (es : List E)
  | panic

section
variable {I A R E : Type} (L : Lang I A R E) (fs : Files)

/-- Models `add_import` (`compile.rs` 362-366). -/
def Ctx.addImport (c : Ctx I R) (src : Src) : Ctx I R :=
  match src.path with
  | some p => { c with imported := fs.canon p :: c.imported }
  | none => c

/-- Models the part of `compile_source_with_parser_and_annotator` after the imports (`compile.rs` 247-330): `dup` is the copy of the
context. On an error or at the end one of the two contexts is dropped. -/
def finish (h : Heap A) (self dup : Ctx I R) (src : Src) (ast : List I) : Heap A × Ctx I R × Out E :=
  let sid := dup.sources.length
  let dup := { dup with sources := dup.sources ++ [src] }
  let an := L.annotate dup.nextId sid ast
  let dup := { dup with nextId := an.2 }
  match h.cells[dup.analysis]? with
  | none => (h, self, .panic)
  | some a =>
    match L.attrs a dup.preds an.1 with
    | .error e => (h.drop dup.analysis, self, .err [e])
    | .ok ((a', preds), ast) =>
      match h.modify dup.analysis (fun _ => (a', ())) with
      | none => (h, self, .panic)
      | some (h, c, _) =>
        let dup := { dup with analysis := c, preds := preds }
        match h.modify dup.analysis (fun a => L.pre a ast) with
        | none => (h, self, .panic)
        | some (h, c, es) =>
          let dup := { dup with analysis := c }
          if es.any L.isError then (h.drop dup.analysis, self, .err es)
          else
            match h.modifyInPlace dup.analysis (fun a => L.transform a ast) with
            | none => (h, self, .panic)
            | some (h, ast) =>
              let an := L.annotate dup.nextId sid ast
              let dup := { dup with nextId := an.2 }
              match h.modify dup.analysis (fun a => ((L.main a dup.preds an.1).1, (L.main a dup.preds an.1).2)) with
              | none => (h, self, .panic)
              | some (h, c, r) =>
                let dup := { dup with analysis := c }
                if (es ++ r.2).any L.isError then (h.drop dup.analysis, self, .err (es ++ r.2))
                else
                  let dup := { dup with items := dup.items ++ an.1, preds := r.1 }
                  (h.drop self.analysis, dup, .ok sid)

/-- Models `process_imports` (`compile.rs` 335-360): `comp` compiles a source. `none` is no end within the number of steps. -/
def imports (comp : Heap A → Ctx I R → Src → Option (Heap A × Ctx I R × Out E)) (src : Src) :
    Heap A → Ctx I R → List String → Option (Heap A × Ctx I R × Out E)
  | h, c, [] => some (h, c, .ok 0)
  | h, c, f :: rest =>
    let p := fs.resolve src.path f
    match fs.read p with
    | none => some (h, c, .err [L.notFound p])
    | some text =>
      if fs.canon p ∈ c.imported then some (h, c, .err [L.cycle p])
      else
        match comp h c ⟨some p, text⟩ with
        | none => none
        | some (h, c, .ok _) => imports comp src h c rest
        | some r => some r

/-- Models `compile_source_with_parser_and_annotator` (`compile.rs` 216-333) with at most `fuel` nested imports. -/
def compile : Nat → Heap A → Ctx I R → Src → Option (Heap A × Ctx I R × Out E)
  | 0, _, _, _ => none
  | fuel + 1, h, self, src =>
    let h := h.clone self.analysis
    match L.parse src.text with
    | .error e => some (h.drop self.analysis, self, .err [e])
    | .ok ast =>
      match imports L fs (compile fuel) src h (self.addImport fs src) (ast.filterMap L.importOf) with
      | none => none
      | some (h, dup, .ok _) => some (finish L h self dup src ast)
      | some (h, dup, .err es) => some (h.drop dup.analysis, self, .err es)
      | some (h, _, .panic) => some (h, self, .panic)

end

/-! ## The context of the interface -/

/-- Models the compilation state of `IntegrateContext` (`integrate/context.rs` 22-45): the items of the front context, whether they have
changed since the last compilation, and the compiled program. -/
structure ICtx (I Q : Type) where
  items : List I
  changed : Bool
  ram : Q

/-- Models `add_program` (`integrate/context.rs` 159-165), with the new items or an error of the front end. -/
def ICtx.add {I Q E : Type} (c : ICtx I Q) : Except E (List I) → ICtx I Q × Option E
  | .ok new => ({ c with items := c.items ++ new, changed := true }, none)
  | .error e => (c, some e)

/-- Models `add_relation` and `add_rule` (`integrate/context.rs` 204-236), that mark the program as changed before it is compiled. -/
def ICtx.addItem {I Q E : Type} (c : ICtx I Q) : Except E (List I) → ICtx I Q × Option E
  | .ok new => ({ c with items := c.items ++ new, changed := true }, none)
  | .error e => ({ c with changed := true }, some e)

/-- Models `compile_with_output_relations` (`integrate/context.rs` 430-475); `back` translates items, with the relations that are asked
for, to a program. -/
def ICtx.compile {I Q E : Type} (back : List I → Option (List String) → Except E Q) (c : ICtx I Q) (outputs : Option (List String)) :
    ICtx I Q × Option E :=
  if c.changed then
    match back c.items outputs with
    | .error e => (c, some e)
    | .ok q => ({ c with ram := q, changed := false }, none)
  else (c, none)

/-- The calls on a context. -/
inductive Call (I E : Type) where
  | add (r : Except E (List I))
  | addItem (r : Except E (List I))
  | compile (outputs : Option (List String))

/-- A call. -/
def ICtx.call {I Q E : Type} (back : List I → Option (List String) → Except E Q) (c : ICtx I Q) : Call I E → ICtx I Q × Option E
  | .add r => c.add r
  | .addItem r => c.addItem r
  | .compile o => c.compile back o

/-- Calls one after the other. Models the first state of `IntegrateContext::new` (`integrate/context.rs` 43-58): no items, not changed, and
the empty program `q0`. -/
def ICtx.run {I Q E : Type} (back : List I → Option (List String) → Except E Q) (q0 : Q) (calls : List (Call I E)) : ICtx I Q :=
  calls.foldl (fun c o => (c.call back o).1) ⟨[], false, q0⟩

end Scallop.Compile
