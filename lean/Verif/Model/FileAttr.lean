import Verif.Model.Attr

/-!
# Attributes that name files

Models `@file` at type declarations and queries: `/repo/core/src/compiler/front/analyzers/{input_files,output_files}.rs`, the constructors in `/repo/core/src/common/{input_file,output_option}.rs`, the part of
`analysis.rs` that collects errors and `collect_back_outputs` in `f2b/f2b.rs`. Locations of errors are left out; a hash map is a list of pairs, the newest first.
-/

namespace Scallop.Attr

/-! ### The extension of a path -/

/-- The parts of a path between slashes. -/
def splitSlash : List Char → List (List Char)
  | [] => [[]]
  | c :: cs => if c = '/' then [] :: splitSlash cs else match splitSlash cs with
    | w :: ws => (c :: w) :: ws
    | [] => [[c]]

/-- Models `Path::file_name` of the standard library on Unix (used by `input_files.rs` 153): empty parts and `.` do not count, `..` is not a name. -/
def fileName (s : List Char) : Option (List Char) :=
  match ((splitSlash s).filter (fun w => decide (w ≠ [] ∧ w ≠ ['.']))).getLast? with
  | some w => if w = ['.', '.'] then none else some w
  | none => none

/-- What is before and after the last dot. -/
def rsplitDot : List Char → Option (List Char × List Char)
  | [] => none
  | c :: cs => match rsplitDot cs with
    | some (b, a) => some (c :: b, a)
    | none => if c = '.' then some ([], cs) else none

/-- Models `Path::extension` of the standard library (used by `input_files.rs` 153, `output_files.rs` 57). -/
def extension (s : List Char) : Option (List Char) :=
  match fileName s with
  | none => none
  | some w => match rsplitDot w with
    | none => none
    | some (b, a) => if b = [] then none else some a

/-! ### The options -/

/-- Models `InputFilesError` (`input_files.rs` 210-249) and `OutputFilesError` (`output_files.rs` 106-132). -/
inductive FileErr where
  | numArgs
  | argument
  | noExtension
  | unknownExtension (ext : List Char)
  | probability
  | header
  | delimString
  | delimSingle
  | delimAscii
  | keysEmpty
  | keysString
  | fields
deriving DecidableEq

/-- Models `InputFile` (`common/input_file.rs` 4-13). -/
structure InputFile where
  path : String
  delim : Nat
  header : Bool
  probability : Bool
  keys : Option (List String)
  fields : Option (List String)
deriving DecidableEq

/-- Models `OutputCSVFile` (`common/output_option.rs` 66-70). -/
structure OutputFile where
  path : String
  delim : Nat
deriving DecidableEq

/-- Models `process_deliminator` (`input_files.rs` 29-53, `output_files.rs` 25-49): `s.len()` counts bytes. -/
def readDelim : Option Value → Except FileErr (Option Nat)
  | none => .ok none
  | some (.str s) =>
    if (s.toList.map Char.utf8Size).sum = 1 then
      match s.toList with
      | c :: _ => if c.toNat < 128 then .ok (some c.toNat) else .error .delimAscii
      | [] => .error .delimSingle
    else .error .delimSingle
  | some _ => .error .delimString

/-- Models `process_has_header` and `process_has_probability` (`input_files.rs` 55-77). -/
def readBool (e : FileErr) : Option Value → Except FileErr (Option Bool)
  | none => .ok none
  | some (.bool b) => .ok (some b)
  | some _ => .error e

/-- The strings of a list, if all its elements are strings. -/
def allStrings : List (Option String) → Option (List String)
  | [] => some []
  | some s :: l => (allStrings l).map (s :: ·)
  | none :: _ => none

/-- Models `process_keys` (`input_files.rs` 79-117). -/
def readKeys : Option Value → Except FileErr (Option (List String))
  | none => .ok none
  | some (.str s) => .ok (some [s])
  | some (.list l) => if l = [] then .error .keysEmpty else match allStrings l with
    | some ks => .ok (some ks)
    | none => .error .keysString
  | some _ => .error .keysString

/-- Models `process_fields` (`input_files.rs` 119-142). -/
def readFields : Option Value → Except FileErr (Option (List String))
  | none => .ok none
  | some (.list l) => match allStrings l with
    | some ks => .ok (some ks)
    | none => .error .fields
  | some _ => .error .fields

/-- A value, or another if there is none (`unwrap_or`). -/
def orElse {α : Type} (d : α) : Option α → α
  | some x => x
  | none => d

/-- The argument `has_header`, or else `header` (`input_files.rs` 156). -/
def Attribute.headerArg (a : Attribute) : Option Value :=
  match a.kwArg "has_header" with
  | some v => some v
  | none => a.kwArg "header"

/-- Models `csv_with_options` (`common/input_file.rs` 27-43). -/
def inputFile (path : String) (delim : Option Nat) (header probability : Option Bool) (keys fields : Option (List String)) : InputFile :=
  ⟨path, orElse 44 delim, orElse false header || keys.isSome || fields.isSome, orElse false probability, keys, fields⟩

/-- Models the first lines of `process_attr` (`input_files.rs` 145-153, 167-186; `output_files.rs` 51-58, 63-82): the path, with the extension `csv`. -/
def readPath (a : Attribute) : Except FileErr String :=
  match a.posArgs with
  | .str s :: _ => match extension s.toList with
    | some e => if e = ['c', 's', 'v'] then .ok s else .error (.unknownExtension e)
    | none => .error .noExtension
  | _ :: _ => .error .argument
  | [] => .error .numArgs

/-- Models `process_attr` (`input_files.rs` 145-187). -/
def readInput (a : Attribute) : Except FileErr InputFile := do
  let path ← readPath a
  let delim ← readDelim (a.kwArg "deliminator")
  let header ← readBool .header a.headerArg
  let probability ← readBool .probability (a.kwArg "has_probability")
  let keys ← readKeys (a.kwArg "keys")
  let fields ← readFields (a.kwArg "fields")
  .ok (inputFile path delim header probability keys fields)

/-- Models `process_attribute` (`output_files.rs` 51-83). -/
def readOutput (a : Attribute) : Except FileErr OutputFile := do
  let path ← readPath a
  let delim ← readDelim (a.kwArg "deliminator")
  .ok ⟨path, orElse 44 delim⟩

/-! ### The analyses -/

/-- Models `InputFilesAnalysis` and `OutputFilesAnalysis` (`input_files.rs` 7-11, `output_files.rs` 7-11). -/
structure FileState (α : Type) where
  files : List (String × α)
  errors : List FileErr

/-- Models `process_attrs` (`input_files.rs` 189-200, `output_files.rs` 85-96): the first attribute named `file`; inserting replaces. -/
def FileState.process {α : Type} (read : Attribute → Except FileErr α) (st : FileState α) (name : String) (attrs : List Attribute) : FileState α :=
  match findAttr attrs "file" with
  | none => st
  | some a => match read a with
    | .ok f => { st with files := (name, f) :: st.files }
    | .error e => { st with errors := st.errors ++ [e] }

/-- Declarations: those of `Item`, and queries (`ast/query.rs` 39-44) with the name that `create_relation_name` (`ast/query.rs` 25-30) gives them. -/
inductive Decl where
  | item (it : Item)
  | query (attrs : List Attribute) (name : String)

/-- Models the visit of `InputFilesAnalysis` (`input_files.rs` 202-208). -/
def visitInput (st : FileState InputFile) : Decl → FileState InputFile
  | .item (.types attrs rels) => rels.foldl (fun st r => st.process readInput r.pred attrs) st
  | _ => st

/-- Models the visit of `OutputFilesAnalysis` (`output_files.rs` 99-103). -/
def visitOutput (st : FileState OutputFile) : Decl → FileState OutputFile
  | .query attrs name => st.process readOutput name attrs
  | _ => st

/-- The query has the name. -/
def Decl.queries (n : String) : Decl → Bool
  | .query _ m => m == n
  | .item _ => false

/-- Models `collect_back_outputs` (`f2b.rs` 56-74) for one name: `none` if no query has the name; otherwise the file, or `none` if the result is printed. -/
def outputOf (files : List (String × OutputFile)) (ds : List Decl) (n : String) : Option (Option OutputFile) :=
  if ds.any (Decl.queries n) then some (files.lookup n) else none

/-- What becomes of the files of a program. -/
structure Files where
  input : String → Option InputFile
  output : String → Option (Option OutputFile)

/-- Models the two analyses in `perform_pre_transformation_analysis` (`analysis.rs` 56-73) with `dump_errors` (`analysis.rs` 103-119), which passes on the errors of the input files only; `none` if there are any.
The relations of declarations are not changed by the transformations; other analyses are not modelled here. -/
def compileFiles (ds : List Decl) : Option Files :=
  let inp := ds.foldl visitInput ⟨[], []⟩
  let out := ds.foldl visitOutput ⟨[], []⟩
  if inp.errors = [] then some ⟨fun p => inp.files.lookup p, outputOf out.files ds⟩ else none

end Scallop.Attr
