import Verif.Model.FileAttr
import Verif.Spec.Attr

/-!
# What attributes that name files say
-/

namespace Scallop.Attr

/-- What may follow the name of a file in a path: slashes, with or without a dot between them. -/
inductive Trailing : List Char → Prop
  | nil : Trailing []
  | slash {t} : Trailing t → Trailing ('/' :: t)
  | dot {t} : Trailing t → Trailing ('/' :: '.' :: t)

/-- The path ends in the name `stem.e`, for a stem that is not empty. -/
def HasExtension (s e : List Char) : Prop :=
  ∃ dir stem tail, s = dir ++ (stem ++ '.' :: e) ++ tail ∧ (dir = [] ∨ ∃ d, dir = d ++ ['/']) ∧ stem ≠ [] ∧ '/' ∉ stem ∧ '/' ∉ e ∧ '.' ∉ e ∧ stem ++ '.' :: e ≠ ['.', '.'] ∧
    Trailing tail

/-- The first positional argument is the path of a csv file. -/
def Attribute.IsFile (a : Attribute) (path : String) : Prop := (∃ vs, a.posArgs = .str path :: vs) ∧ HasExtension path.toList "csv".toList

/-- An option is absent, or is given by a value that means `x`. -/
def Opt {α : Type} (v : Option Value) (means : Value → α → Prop) (x : Option α) : Prop :=
  (v = none ∧ x = none) ∨ ∃ w y, v = some w ∧ x = some y ∧ means w y

/-- A delimiter is an ASCII character. -/
def MeansChar (v : Value) (n : Nat) : Prop := ∃ c : Char, v = .str (String.ofList [c]) ∧ c.toNat = n ∧ n < 128

/-- A truth value. -/
def MeansBool (v : Value) (b : Bool) : Prop := v = .bool b

/-- A list of strings. -/
def MeansStrings (v : Value) (l : List String) : Prop := v = .list (l.map some)

/-- Keys are a string or a list of strings that is not empty. -/
def MeansKeys (v : Value) (l : List String) : Prop := (∃ s, v = .str s ∧ l = [s]) ∨ (l ≠ [] ∧ MeansStrings v l)

/-- The options of an input file: the delimiter is a comma if it is not given; there is a header if `has_header` says so (or `header`, if there is no `has_header`), or if there are keys or fields. -/
def ReadsInput (a : Attribute) (f : InputFile) : Prop :=
  a.IsFile f.path ∧
  (∃ d, Opt (a.kwArg "deliminator") MeansChar d ∧ (d = none ∧ f.delim = ','.toNat ∨ d = some f.delim)) ∧
  (∃ h, Opt (if a.kwArg "has_header" = none then a.kwArg "header" else a.kwArg "has_header") MeansBool h ∧ (f.header = true ↔ h = some true ∨ f.keys ≠ none ∨ f.fields ≠ none)) ∧
  (∃ q, Opt (a.kwArg "has_probability") MeansBool q ∧ (f.probability = true ↔ q = some true)) ∧
  Opt (a.kwArg "keys") MeansKeys f.keys ∧ Opt (a.kwArg "fields") MeansStrings f.fields

/-- The options of an output file. -/
def ReadsOutput (a : Attribute) (f : OutputFile) : Prop :=
  a.IsFile f.path ∧ ∃ d, Opt (a.kwArg "deliminator") MeansChar d ∧ (d = none ∧ f.delim = ','.toNat ∨ d = some f.delim)

/-- The first attribute named `file` in a list. -/
def FirstFile (attrs : List Attribute) (a : Attribute) : Prop := ∃ l r, attrs = l ++ a :: r ∧ a.name = "file" ∧ ∀ b ∈ l, b.name ≠ "file"

/-- The declaration says that relation `p` is in the file `f`. -/
def SaysInput (d : Decl) (p : String) (f : InputFile) : Prop :=
  ∃ attrs rels a, d = .item (.types attrs rels) ∧ (∃ r ∈ rels, r.pred = p) ∧ FirstFile attrs a ∧ ReadsInput a f

/-- The query named `n` says that its results go to the file `f`. -/
def SaysOutput (d : Decl) (n : String) (f : OutputFile) : Prop := ∃ attrs a, d = .query attrs n ∧ FirstFile attrs a ∧ ReadsOutput a f

/-- The last declaration that says something says `f`. -/
def Last {α : Type} (ds : List Decl) (P : Decl → α → Prop) (f : α) : Prop := ∃ l d r, ds = l ++ d :: r ∧ P d f ∧ ∀ d' ∈ r, ∀ g, ¬ P d' g

end Scallop.Attr
