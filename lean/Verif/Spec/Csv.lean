import Verif.Model.Csv
import Mathlib.Data.Nat.Digits.Defs

/-! # What the text of a file says -/

namespace Scallop.Csv

open Scallop.Input (DynTag)

variable {K : Type*}

/-- A decimal numeral. -/
def IsNumeral (t : Text) (n : Nat) : Prop :=
  ∃ ds : List (Fin 10), ds ≠ [] ∧ t = ds.map (fun d => Char.ofNat (48 + d.val)) ∧ n = Nat.ofDigits 10 (ds.reverse.map Fin.val)

/-- The bounds of an integer type. -/
def InRange (signed : Bool) (bits : Nat) (i : Int) : Prop :=
  if signed then -(2 ^ (bits - 1) : Int) ≤ i ∧ i < 2 ^ (bits - 1) else 0 ≤ i ∧ i < (2 : Int) ^ bits

/-- The text of an integer: a numeral, with a sign or without. -/
def IntText (signed : Bool) (bits : Nat) (t : Text) (i : Int) : Prop :=
  InRange signed bits i ∧
    ((∃ n : Nat, i = n ∧ (IsNumeral t n ∨ ∃ t', t = '+' :: t' ∧ IsNumeral t' n)) ∨ (signed = true ∧ ∃ (n : Nat) (t' : Text), i = -(n : Int) ∧ t = '-' :: t' ∧ IsNumeral t' n))

/-- A text says a value of a type. -/
def Reads (F : FloatText K) (ty : Ty) (t : Text) (v : Val K) : Prop :=
  (∃ s b i, ty = .int s b ∧ v = .int s b i ∧ IntText s b t i) ∨
  (∃ f, ty = .float ∧ v = .float f ∧ F.parse t = some f) ∨
  (ty = .bool ∧ v = .bool true ∧ t = "true".toList) ∨ (ty = .bool ∧ v = .bool false ∧ t = "false".toList) ∨
  (∃ c, ty = .char ∧ v = .char c ∧ t = [c]) ∨ (∃ s, ty = .string ∧ v = .string s ∧ t = s)

/-- A text says a tag. -/
def TagReads (F : FloatText K) (t : Text) (tag : DynTag K) : Prop :=
  (t = "true".toList ∧ tag = .bool true) ∨ (t = "false".toList ∧ tag = .bool false) ∨
    (t ≠ "true".toList ∧ t ≠ "false".toList ∧ ∃ f, F.parse t = some f ∧ tag = .float f)

/-- The tag of a row: its first cell, if the file has probabilities. -/
def RowTag (F : FloatText K) (probability : Bool) (row : List Text) (tag : DynTag K) : Prop :=
  if probability then ∃ t cells, row = t :: cells ∧ TagReads F t tag else tag = .none

/-- Texts say values of types, one by one. -/
def RowReads (F : FloatText K) (types : List Ty) (cells : List Text) (vs : List (Val K)) : Prop :=
  cells.length = types.length ∧ vs.length = types.length ∧
    ∀ (j : Nat) ty t v, types[j]? = some ty → cells[j]? = some t → vs[j]? = some v → Reads F ty t v

/-- The fact of a row. -/
def RawFact (F : FloatText K) (probability : Bool) (types : List Ty) (row : List Text) (f : DynTag K × List (Val K)) : Prop :=
  RowTag F probability row f.1 ∧ RowReads F types (row.drop (if probability then 1 else 0)) f.2

/-- A column of a row, by its header. -/
def Under (header : List Text) (row : List Text) (h : Text) (t : Text) : Prop := ∃ i : Nat, header[i]? = some h ∧ row[i]? = some t

/-- The values under some headers. -/
def FieldsRead (F : FloatText K) (header : List Text) (hs : List Text) (types : List Ty) (row : List Text) (vs : List (Val K)) : Prop :=
  vs.length = hs.length ∧ ∀ (j : Nat) h ty v, hs[j]? = some h → types[j]? = some ty → vs[j]? = some v → ∃ t, Under header row h t ∧ Reads F ty t v

/-- The fact of the fields of a row. -/
def FieldsFact (F : FloatText K) (probability : Bool) (header : List Text) (hs : List Text) (types : List Ty) (row : List Text) (f : DynTag K × List (Val K)) : Prop :=
  RowTag F probability row f.1 ∧ FieldsRead F header hs types row f.2

/-- The facts of a row with keys: one for each other column, with its header and its text. -/
def KeysFact (F : FloatText K) (probability : Bool) (header : List Text) (keys : List Text) (fields : Option (List Text)) (types : List Ty) (row : List Text)
    (f : DynTag K × List (Val K)) : Prop :=
  RowTag F probability row f.1 ∧ ∃ (ks : List (Val K)) (i : Nat) (h t : Text), FieldsRead F header keys types row ks ∧ f.2 = ks ++ [.symbol h, .string t] ∧
    header[i]? = some h ∧ row[i]? = some t ∧ (probability = true → i ≠ 0) ∧ h ∉ keys ∧ ∀ fs, fields = some fs → h ∈ fs

/-- A value of a type. -/
def HasType : Ty → Val K → Prop
  | .int s b, .int s' b' i => s = s' ∧ b = b' ∧ InRange s b i
  | .float, .float _ => True
  | .bool, .bool _ => True
  | .char, .char _ => True
  | .string, .string _ => True
  | .symbol, .symbol _ => True
  | _, _ => False

end Scallop.Csv
