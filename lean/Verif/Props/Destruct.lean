import Verif.Proof.Destruct

/-!
# Patterns in arguments: the properties

C125: an atom with constructors among its arguments is about the entities made by these constructors.
-/

namespace Scallop.Destr

variable {E V : Type}

/-! ## Test data -/

/-- Values: numbers and names of entities. Expressions: a variable of the program with its value, or `_`. -/
private def adm : Option Nat → Nat → Prop := fun e v => match e with | none => True | some n => v = n
/-- The facts `adt#Nil(100)`, `adt#Cons(101, 1, 100)`, `adt#Cons(102, 2, 101)` and `p(102)`, `p(100)`. -/
private def db : String → List Nat → Prop := fun p vs => (p, vs) ∈
  [("adt#Nil", [100]), ("adt#Cons", [101, 1, 100]), ("adt#Cons", [102, 2, 101]), ("p", [102]), ("p", [100])]
/-- The pattern `Cons(x, Cons(_, Nil()))`. -/
private def two (x : Nat) : Arg (Option Nat) := .destr 7 "Cons" [.expr (some x), .destr 8 "Cons" [.expr none, .destr 9 "Nil" []]]

/-- **C125**, bodies: under the values that the variables of the program have, the conjunction that replaces an atom with patterns can be made true by values of the
new variables exactly if the relation has a fact whose values match the arguments. The patterns of an atom have different numbers, as all nodes of a program. -/
theorem c125_body [Inhabited V] (adm : E → V → Prop) (DB : String → List V → Prop) (p : String) (args : List (Arg E)) (hn : (ids args).Nodup) :
    (∃ σ : Var → V, ∀ o ∈ visitAtom p args, o.Holds adm DB σ) ↔ ∃ vs, DB p vs ∧ Matches.all adm DB args vs := by
  simp only [visitAtom, List.forall_mem_cons, OAtom.Holds]
  constructor
  · rintro ⟨σ, ⟨vs, hdb, hv⟩, ho⟩
    exact ⟨vs, hdb, (rootArgs_iff args hn vs).mp ⟨σ, ho, hv⟩⟩
  · rintro ⟨vs, hdb, hm⟩
    obtain ⟨σ, ho, hv⟩ := (rootArgs_iff args hn vs).mpr hm
    exact ⟨σ, ⟨vs, hdb, hv⟩, ho⟩

/-- `p(Cons(x, Cons(_, Nil())))` is true for `x = 2` and for no other number. -/
example (x : Nat) : (∃ σ : Var → Nat, ∀ o ∈ visitAtom "p" [two x], o.Holds adm db σ) ↔ x = 2 := by
  rw [c125_body adm db "p" [two x] (by simp [ids, two])]
  constructor
  · rintro ⟨vs, hp, hm⟩
    match vs, hm with
    | [v], ⟨⟨us, hc, hu⟩, _⟩ =>
      match us, hu with
      | [a, b], ⟨ha, ⟨ws, hd, _⟩, _⟩ =>
        have ha : a = x := ha
        simp [db] at hp hc hd
        omega
  · rintro rfl
    refine ⟨[102], by simp [db], ⟨[2, 101], by simp [db], rfl, ⟨[1, 100], by simp [db], trivial, ⟨[], by simp [db], trivial⟩, trivial⟩, trivial⟩, trivial⟩

/-- The atoms are those of the program text: one per constructor, inner ones first. -/
example : visitAtom "p" [two 2] =
    [⟨"p", [.var (.root 7)]⟩, ⟨"adt#Nil", [.var (.sub 7 1)]⟩, ⟨"adt#Cons", [.var (.sub 7 0), .expr none, .var (.sub 7 1)]⟩,
      ⟨"adt#Cons", [.var (.root 7), .expr (some 2), .var (.sub 7 0)]⟩] := by decide +kernel

/-- **C125**, heads: a rule whose head is an atom with patterns derives `p(vs)`, where its body is true, exactly for the values that match the arguments: patterns in
heads stand for entities that exist. -/
theorem c125_head [Inhabited V] (adm : E → V → Prop) (DB : String → List V → Prop) (p : String) (args : List (Arg E)) (hn : (ids args).Nodup) :
    ∃ h extra, visitHead (.atom p args) = some ([h], extra) ∧ h.pred = p ∧
      ∀ vs, (∃ σ : Var → V, (∀ o ∈ extra, o.Holds adm DB σ) ∧ List.Forall₂ (Out.Adm adm σ) h.args vs) ↔ Matches.all adm DB args vs :=
  ⟨_, _, rfl, rfl, fun vs => rootArgs_iff args hn vs⟩

/-- Different numbers are needed: with the same number for both patterns, `q(Nil(), Cons(_, _))` is about one entity. -/
example : (rootArgs [.destr 1 "Nil" [], .destr 1 "Cons" [.expr none, .expr none]] 0 : List (Out (Option Nat)) × _).1 = [.var (.root 1), .var (.root 1)] := by
  decide +kernel

/-- **C125**, facts: a fact with patterns or expressions among its arguments derives `p(vs)` exactly for the values that match them, so that a fact about
constructors is one about all the entities made so. The patterns need no numbers here. -/
theorem c125_fact [Inhabited V] (adm : E → V → Prop) (DB : String → List V → Prop) (isConst : E → Bool) (args : List (Arg E)) (vs : List V) :
    (∃ σ : Var → V, (∀ o ∈ (factArgs isConst args 0).2, o.Holds adm DB σ) ∧ List.Forall₂ (Out.Adm adm σ) (factArgs isConst args 0).1 vs) ↔
      Matches.all adm DB args vs := by
  constructor
  · rintro ⟨σ, h1, h2⟩
    exact factArgs_sound isConst σ args 0 vs h1 h2
  · intro h
    obtain ⟨s, r, hs⟩ := factArgs_complete isConst args 0 vs h
    exact ⟨fun x => match x with | .root i => r i | .sub j k => s j k, hs _ (fun _ _ _ => rfl) (fun _ _ => rfl)⟩

/-- `rel q(Cons(1, Nil()), 5)` derives `q(101, 5)` only: the list exists. `rel q(Cons(2, Nil()))` derives nothing: this list was not made. -/
example (vs : List Nat) :
    (Matches.all adm db [.destr 1 "Cons" [.expr (some 1), .destr 2 "Nil" []], .expr (some 5)] vs ↔ vs = [101, 5]) ∧
      ¬ Matches.all adm db [.destr 1 "Cons" [.expr (some 2), .destr 2 "Nil" []]] vs := by
  constructor
  · constructor
    · intro hm
      match vs, hm with
      | [v, w], ⟨⟨us, hc, hu⟩, hw, _⟩ =>
        match us, hu with
        | [a, b], ⟨ha, _⟩ =>
          have ha : a = 1 := ha
          have hw : w = 5 := hw
          simp [db] at hc
          simp
          omega
    · rintro rfl
      exact ⟨⟨[1, 100], by simp [db], rfl, ⟨[], by simp [db], trivial⟩, trivial⟩, rfl, trivial⟩
  · intro hm
    match vs, hm with
    | [v], ⟨⟨us, hc, hu⟩, _⟩ =>
      match us, hu with
      | [a, b], ⟨ha, ⟨ws, hd, _⟩, _⟩ =>
        have ha : a = 2 := ha
        simp [db] at hc hd
        omega

/-- Refutes **C125** for several heads: with a pattern in one of several heads, joined by `and` or by `or`, the compiler panics. -/
theorem c125_heads_false (as : List (String × List (Arg E))) (h : ∃ a ∈ as, ∃ id f l, Arg.destr id f l ∈ a.2) :
    visitHead (.conj as) = none ∧ visitHead (.disj as) = none := by
  obtain ⟨a, ha, id, f, l, hm⟩ := h
  have : (as.any (fun a => hasDestruct a.2)) = true :=
    List.any_eq_true.mpr ⟨a, ha, List.any_eq_true.mpr ⟨_, hm, rfl⟩⟩
  simp [visitHead, this]

/-- `p(Nil()), q(x) = …`. -/
example : visitHead (.conj [("p", [.destr 1 "Nil" []]), ("q", [.expr (some 3)])] : Head (Option Nat)) = none := (c125_heads_false _ ⟨_, List.mem_cons_self, 1, "Nil", [], List.mem_cons_self⟩).1

/-- Refutes **C125** for negated atoms: `not p(…)` with a pattern among the arguments is not transformed, and the compiler panics when it makes a literal of it. -/
theorem c125_negated_false (args : List (Arg E)) : negatedArgs args = none ↔ ∃ id f l, Arg.destr id f l ∈ args := by
  induction args with
  | nil => simp [negatedArgs]
  | cons a args ih =>
    cases a with
    | expr e => simp [negatedArgs, ih]
    | destr id f l =>
      simp only [negatedArgs, true_iff]
      exact ⟨id, f, l, List.mem_cons_self⟩

/-- `not p(x, Nil())`. -/
example : negatedArgs [.expr (some 1), .destr 1 "Nil" []] = none := (c125_negated_false _).mpr ⟨1, "Nil", [], by simp⟩

end Scallop.Destr
