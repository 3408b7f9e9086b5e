import Verif.Model.InputTags

/-!
# Facts in files

Models loading facts from CSV files and writing them (`/repo/core/src/runtime/database/io/input_file_content.rs`,
`/repo/core/src/runtime/database/io/input_file_registry.rs`, `/repo/core/src/runtime/database/io/output_file.rs`,
`/repo/core/src/runtime/database/extensional/relation.rs` 135-156, 251-636, `/repo/core/src/runtime/database/extensional/database.rs` 203-247,
`/repo/core/src/common/input_file.rs`, `/repo/core/src/common/value_type.rs` 229-278, `/repo/core/src/common/value.rs` 151-182, `/repo/core/src/common/symbol_registry.rs`).

Not modelled: the library that splits a file into records (a file is given by its records for each delimiter) and the text of floating point numbers (two functions);
dates, durations, tensors and entities. A symbol is its name.
-/

namespace Scallop.Csv

open Scallop.Input (DynTag)

/-- Text. -/
abbrev Text := List Char

variable {K : Type*}

/-! ## Values and their text -/

/-- The types of columns. `opaque`: `Str`, `Symbol`, `Entity` and `Tensor`, for which `parse` panics. -/
inductive Ty where
  | int (signed : Bool) (bits : Nat)
  | float
  | bool
  | char
  | string
  | symbol
  | opaque
deriving DecidableEq

/-- Values (`value.rs` 14-44). -/
inductive Val (K : Type*) where
  | int (signed : Bool) (bits : Nat) (i : Int)
  | float (f : K)
  | bool (b : Bool)
  | char (c : Char)
  | string (s : Text)
  | symbol (name : Text)
deriving DecidableEq

/-- The text of a floating point number. -/
structure FloatText (K : Type*) where
  parse : Text → Option K
  show_ : K → Text

/-- Errors (`runtime/error/io.rs`); `panic` is a panic. -/
inductive Err where
  | arity
  | field
  | index
  | probability
  | value
  | type
  | records
  | panic
deriving DecidableEq

/-- The value of a digit (`char::to_digit(10)`). -/
def digit (c : Char) : Option Nat := if '0' ≤ c ∧ c ≤ '9' then some (c.toNat - '0'.toNat) else none

/-- Digits to a number, from the left. -/
def parseDigits : Nat → Text → Option Nat
  | n, [] => some n
  | n, c :: cs => (digit c).bind (fun d => parseDigits (10 * n + d) cs)

/-- Models `from_str` of the integer types (`core::num::from_str_radix`): an optional sign (`-` only for signed types), at least one digit, and the
bounds of the type. -/
def parseInt (signed : Bool) (bits : Nat) (s : Text) : Option Int :=
  let body (s : Text) : Option Nat := if s = [] then none else parseDigits 0 s
  let r : Option Int := match s with
    | '+' :: cs => (body cs).map Int.ofNat
    | '-' :: cs => if signed then (body cs).map Int.negOfNat else none
    | cs => (body cs).map Int.ofNat
  r.bind (fun i => if (if signed then -(2 ^ (bits - 1) : Int) ≤ i ∧ i < 2 ^ (bits - 1) else 0 ≤ i ∧ i < (2 : Int) ^ bits) then some i else none)

/-- Models `parse` (`value_type.rs` 229-278). -/
def parse (F : FloatText K) : Ty → Text → Except Err (Val K)
  | .int s b, t => match parseInt s b t with
    | some i => .ok (.int s b i)
    | none => .error .value
  | .float, t => match F.parse t with
    | some f => .ok (.float f)
    | none => .error .value
  | .bool, t => if t = "true".toList then .ok (.bool true) else if t = "false".toList then .ok (.bool false) else .error .value
  | .char, t => match t with
    | [c] => .ok (.char c)
    | _ => .error .value
  | .string, t => .ok (.string t)
  | .symbol, _ => .error .panic
  | .opaque, _ => .error .panic

/-- The character of a digit. -/
def digitChar (d : Nat) : Char := Char.ofNat ('0'.toNat + d)

/-- Decimal digits of a number; the first argument bounds their number. -/
def showNatLoop : Nat → Nat → Text
  | 0, _ => []
  | fuel + 1, n => if n < 10 then [digitChar n] else showNatLoop fuel (n / 10) ++ [digitChar (n % 10)]

/-- `Display` of unsigned integers. -/
def showNat (n : Nat) : Text := showNatLoop (n + 1) n

/-- `Display` of integers. -/
def showInt (i : Int) : Text := if i < 0 then '-' :: showNat i.natAbs else showNat i.natAbs

/-- `Debug` of a character inside a string (`char::escape_debug_ext`). Simplified: characters that cannot be printed stay as they are. -/
def escape : Char → Text
  | '"' => ['\\', '"']
  | '\\' => ['\\', '\\']
  | '\n' => ['\\', 'n']
  | '\r' => ['\\', 'r']
  | '\t' => ['\\', 't']
  | c => [c]

/-- Models `Display` (`value.rs` 151-182). A recovered symbol is a `SymbolString`. -/
def show_ (F : FloatText K) : Val K → Text
  | .int _ _ i => showInt i
  | .float f => F.show_ f
  | .bool true => "true".toList
  | .bool false => "false".toList
  | .char c => ['\'', c, '\'']
  | .string s => '"' :: (s.flatMap escape ++ ['"'])
  | .symbol s => 's' :: '"' :: (s ++ ['"'])

/-! ## Files -/

/-- A file: its records when read with a delimiter. -/
abbrev File := Char → List (List Text)

/-- Models `CSVFileContent` (`input_file_content.rs` 24-29); `field_id_map` is computed from `fields`. -/
structure Content where
  fields : List Text
  rows : List (List Text)
deriving DecidableEq

/-- Models `from_file` (`input_file_content.rs` 32-74): all records must have the same length (the reader is not `flexible`). -/
def fromFile (f : File) (delim : Char) (header : Bool) : Except Err Content :=
  let rs := f delim
  if rs.all (fun r => r.length == (rs.headD []).length) then
    if header then .ok ⟨rs.headD [], rs.tail⟩ else .ok ⟨[], rs⟩
  else .error .records

/-- Models `get_header_id` (`input_file_content.rs` 84-86) with the map collected at 51: of equal headers the last. -/
def Content.headerId (c : Content) (h : Text) : Option Nat :=
  (c.fields.zipIdx.filter (fun f => f.1 = h)).getLast?.map Prod.snd

/-- The options of a file (`input_file.rs` 4-13). -/
structure Options where
  path : Nat
  delim : Char
  header : Bool
  probability : Bool
  keys : Option (List Text)
  fields : Option (List Text)
deriving DecidableEq

/-- Models `csv_with_options` (`input_file.rs` 27-43). -/
def withOptions (path : Nat) (delim : Option Char) (header probability : Option Bool) (keys fields : Option (List Text)) : Options :=
  ⟨path, delim.getD ',', header.getD false || keys.isSome || fields.isSome, probability.getD false, keys, fields⟩

/-- Collecting results: the first error stops. -/
def collect {α β ε : Type*} (f : α → Except ε β) : List α → Except ε (List β)
  | [] => .ok []
  | a :: as => match f a with
    | .error e => .error e
    | .ok b => match collect f as with
      | .error e => .error e
      | .ok bs => .ok (b :: bs)

/-- Models `from_str` of tags (`input_tag.rs` 67-84). -/
def parseTag (F : FloatText K) (t : Text) : Option (DynTag K) :=
  if t = "true".toList then some (.bool true)
  else if t = "false".toList then some (.bool false)
  else (F.parse t).map .float

/-- The tag of a row (`relation.rs` 591-599 and elsewhere). -/
def rowTag (F : FloatText K) (probability : Bool) (row : List Text) : Except Err (DynTag K) :=
  if probability then
    match row[0]? with
    | none => .error .index
    | some s => match parseTag F s with
      | none => .error .probability
      | some t => .ok t
  else .ok .none

/-- A cell of a row as a value. -/
def cell (F : FloatText K) (row : List Text) (p : Nat × Ty) : Except Err (Val K) :=
  match row[p.1]? with
  | none => .error .index
  | some s => parse F p.2 s

/-- Models one turn of the loop of `load_from_csv_raw` (`relation.rs` 589-619). -/
def rawRow (F : FloatText K) (probability : Bool) (types : List Ty) (row : List Text) : Except Err (DynTag K × List (Val K)) :=
  let off := if probability then 1 else 0
  if row.length ≠ types.length + off then .error .arity
  else match rowTag F probability row with
    | .error e => .error e
    | .ok t => match collect (fun p => parse F p.2 p.1) ((row.drop off).zip types) with
      | .error e => .error e
      | .ok vs => .ok (t, vs)

/-- Models `load_from_csv_raw` (`relation.rs` 579-622). -/
def loadRaw (F : FloatText K) (probability : Bool) (c : Content) (types : List Ty) : Except Err (List (DynTag K × List (Val K))) :=
  collect (rawRow F probability types) c.rows

/-- The columns with the given headers (`relation.rs` 538-547 and elsewhere). -/
def columns (c : Content) (hs : List Text) (types : List Ty) : Except Err (List (Nat × Ty)) :=
  collect (fun p => match c.headerId p.1 with | none => .error .field | some i => .ok (i, p.2)) (hs.zip types)

/-- Models one turn of the loop of `load_from_csv_with_fields` (`relation.rs` 551-574). -/
def fieldsRow (F : FloatText K) (probability : Bool) (cols : List (Nat × Ty)) (row : List Text) : Except Err (DynTag K × List (Val K)) :=
  match rowTag F probability row with
  | .error e => .error e
  | .ok t => match collect (cell F row) cols with
    | .error e => .error e
    | .ok vs => .ok (t, vs)

/-- Models `load_from_csv_with_fields` (`relation.rs` 521-577). -/
def loadFields (F : FloatText K) (fields : List Text) (probability : Bool) (c : Content) (types : List Ty) : Except Err (List (DynTag K × List (Val K))) :=
  if types.length ≠ fields.length then .error .arity
  else match columns c fields types with
    | .error e => .error e
    | .ok cols => collect (fieldsRow F probability cols) c.rows

/-- The value of a field that is no key (`relation.rs` 374-392, 485-503). -/
def fieldValue (c : Content) (p : Text × Nat) : Except Err (List (Val K)) :=
  match c.fields[p.2]? with
  | none => .error .index
  | some h => .ok [.symbol h, .string p.1]

/-- Models one turn of the loop of `load_from_csv_with_keys` and `load_from_csv_with_keys_and_fields` (`relation.rs` 353-403, 464-514): `only` is the set of
columns to include. -/
def keysRow (F : FloatText K) (probability : Bool) (c : Content) (keys : List (Nat × Ty)) (only : Option (List Nat)) (row : List Text) :
    Except Err (List (DynTag K × List (Val K))) :=
  match rowTag F probability row with
  | .error e => .error e
  | .ok t => match collect (cell F row) keys with
    | .error e => .error e
    | .ok ks =>
      let rest := (row.zipIdx.drop (if probability then 1 else 0)).filter
        (fun p => !(keys.any (fun k => k.1 == p.2)) && (match only with | none => true | some is => is.contains p.2))
      match collect (fieldValue c) rest with
      | .error e => .error e
      | .ok fv => .ok (fv.map (fun v => (t, ks ++ v)))

/-- Models `load_from_csv_with_keys` and `load_from_csv_with_keys_and_fields` (`relation.rs` 288-519). -/
def loadKeys (F : FloatText K) (keys : List Text) (fields : Option (List Text)) (probability : Bool) (c : Content) (types : List Ty) :
    Except Err (List (DynTag K × List (Val K))) :=
  if types.length ≠ keys.length + 2 then .error .arity
  else if types.drop keys.length ≠ [.symbol, .string] then .error .type
  else match columns c keys types with
    | .error e => .error e
    | .ok cols =>
      match fields with
      | none => match collect (keysRow F probability c cols none) c.rows with
        | .error e => .error e
        | .ok rs => .ok rs.flatten
      | some fs =>
        match collect (fun f => match c.headerId f with | none => Except.error Err.field | some i => .ok i) fs with
        | .error e => .error e
        | .ok is => match collect (keysRow F probability c cols (some is)) c.rows with
          | .error e => .error e
          | .ok rs => .ok rs.flatten

/-- Models `load_from_csv` (`relation.rs` 270-286). -/
def load (F : FloatText K) (o : Options) (c : Content) (types : List Ty) : Except Err (List (DynTag K × List (Val K))) :=
  match o.keys, o.fields with
  | some ks, fs => loadKeys F ks fs o.probability c types
  | none, some fs => loadFields F fs o.probability c types
  | none, none => loadRaw F o.probability c types

/-! ## Registry and relations -/

/-- Models `InputFileRegistry` (`input_file_registry.rs` 10-13). -/
abbrev Registry := List (Nat × Content)

/-- Models `load` (`input_file_registry.rs` 39-57): the files of the relations of a program in turn; `disk` gives the files. -/
def Registry.load (disk : Nat → Option File) : Registry → List Options → Except Err Registry
  | reg, [] => .ok reg
  | reg, o :: os =>
    match reg.lookup o.path with
    | some _ => Registry.load disk reg os
    | none =>
      match disk o.path with
      | none => .error .records
      | some f => match fromFile f o.delim o.header with
        | .error e => .error e
        | .ok c => Registry.load disk (reg ++ [(o.path, c)]) os

/-- A relation of the database, with what matters here (`relation.rs` 18-44). -/
structure Rel (K : Type*) where
  loaded : List Nat
  input : List (DynTag K × List (Val K))

/-- Models `load_from_file` (`relation.rs` 135-156) with the content that the registry has (`database.rs` 236-241; the `unwrap` is a panic). -/
def Rel.loadFrom (F : FloatText K) (reg : Registry) (o : Options) (types : List Ty) (r : Rel K) : Except Err (Rel K) :=
  match reg.lookup o.path with
  | none => .error .panic
  | some c =>
    if r.loaded.contains o.path then .ok r
    else match load F o c types with
      | .error e => .error e
      | .ok fs => .ok ⟨r.loaded ++ [o.path], r.input ++ fs⟩

/-- Models `store_csv_file` (`output_file.rs` 24-43): the records that are written. (The file of a relation without columns is not
modelled: the library writes an empty record as an empty text.) -/
def store (F : FloatText K) (facts : List (List (Val K))) : List (List Text) := facts.map (fun t => t.map (show_ F))

/-! ## Symbols -/

/-- Models `SymbolRegistry` (`symbol_registry.rs` 4-7). -/
structure Symbols where
  ids : List (Text × Nat)
  names : List Text

/-- Models `new` (`symbol_registry.rs` 11-16). -/
def Symbols.new : Symbols := ⟨[], []⟩

/-- Models `register` (`symbol_registry.rs` 24-33). -/
def Symbols.register (s : Symbols) (name : Text) : Symbols × Nat :=
  match s.ids.lookup name with
  | some id => (s, id)
  | none => (⟨(name, s.names.length) :: s.ids, s.names ++ [name]⟩, s.names.length)

/-- Models `get_symbol` (`symbol_registry.rs` 41-43). -/
def Symbols.get (s : Symbols) (id : Nat) : Option Text := s.names[id]?

/-- A sequence of registrations. -/
def Symbols.registerAll : Symbols → List Text → Symbols × List Nat
  | s, [] => (s, [])
  | s, n :: ns =>
    let r := s.register n
    let q := Symbols.registerAll r.1 ns
    (q.1, r.2 :: q.2)

end Scallop.Csv
