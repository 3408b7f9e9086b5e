import Verif.Model.StaticAgg

/-!
# Typed tuples as tuples of the interpreter

What `into_dyn_tuple` (`/repo/core/src/runtime/statics/tuple.rs`) gives for pairs and triples, and which aggregates keep the mark `!` when compiled.
-/

namespace Scallop.SAgg

open Scallop

variable {V K A B O : Type}

/-- A pair as a tuple of the interpreter. -/
def pairTup (ek : K → Tup V) (ea : A → Tup V) (p : K × A) : Tup V := .tup [ek p.1, ea p.2]

/-- A triple as a tuple of the interpreter. -/
def tripleTup (ek : K → Tup V) (eb : B → Tup V) (eo : O → Tup V) (p : K × B × O) : Tup V := .tup [ek p.1, eb p.2.1, eo p.2.2]

/-- The aggregates whose compiled form is the same with and without the mark `!` as in the interpreter. -/
def marked : List String := ["count", "exists", "top"]

/-- The aggregates that can be compiled with any arguments. -/
def withArguments : List String := ["count", "exists", "argmin", "argmax", "top"]

/-- The aggregates that can be compiled without arguments only. -/
def withoutArguments : List String := ["sum", "prod", "min", "max"]

end Scallop.SAgg
