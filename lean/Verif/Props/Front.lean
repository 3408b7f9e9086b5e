import Verif.Proof.Front5
import Verif.Props.Back

/-!
# Surface language: the properties

C35 (normalisation of bodies), C36 (negation and implication), C65 (a compiled rule derives what its text says), C66 (patterns),
C67 (nested expressions), C68 (ranges), C69 (several heads).
-/

namespace Scallop.Front

open Scallop.Back (Term Atom AExpr COp Lit Head Rule noExt noExt_exact)

variable {F : Type}

/-! ## Test data -/

private abbrev i (n : Int) : Val Empty := .int .i32 n
private abbrev x : FExpr Empty := .var (.user "x")
private abbrev y : FExpr Empty := .var (.user "y")
private abbrev A (args : List (FExpr Empty)) : Formula Empty := .atom "a" args
private abbrev B (args : List (FExpr Empty)) : Formula Empty := .atom "b" args
private abbrev noAggs : Aggs Empty := fun _ _ _ _ => False
/-- The facts `a(1)`, `a(2)`, `b(1)` and the predicate `range`. -/
private def db : DB Empty := fun p vs =>
  (p = "a" ∧ (vs = [i 1] ∨ vs = [i 2])) ∨ (p = "b" ∧ vs = [i 1]) ∨
    (p = "range#i32" ∧ ∃ a b c, vs = [.int .i32 a, .int .i32 b, .int .i32 c] ∧ a ≤ c ∧ c < b)

private theorem db_range : RangeDB db := fun vs => by simp [db]

/-- The database of the examples can be used with the theorems about ranges. -/
example : RangeDB db := db_range

/-! ## C35: normalisation -/

/-- **C35**: a body is true exactly when all literals of one of the conjunctions it is split into are, under every assignment and
whatever the facts; each conjunction consists of atoms, constraints, negated atoms and aggregates only. -/
theorem c35 (X : Ext F) (D : DB F) (G : Aggs F) (V : Name → Prop) (σ : Name → Val F) (f : Formula F) (hf : f.NonEmpty) (cs : List (ConjCtx F))
    (e : fromFormula f = some cs) :
    (f.Holds X D G V σ ↔ ∃ c ∈ cs, ∀ l ∈ c.pos ++ c.neg ++ c.agg, l.Holds X D G V σ) ∧
    ∀ c ∈ cs, (∀ l ∈ c.pos, (∃ p as, l = .atom p as) ∨ ∃ e, l = .constraint e) ∧ (∀ l ∈ c.neg, ∃ p as, l = .neg p as) ∧
      ∀ l ∈ c.agg, ∃ a b d e f g h, l = .reduce a b d e f g h :=
  ⟨fromFormula_holds f hf cs e, fromFormula_sorted f cs e⟩

/-- **C35**: what desugaring leaves can always be split. -/
theorem c35_no_panic (f f' : Formula F) (e : desugar f = .ok f') : ∃ cs, fromFormula f' = some cs := walk_fromFormula _ f f' e

/-- `(a(x) or b(x)) and (b(y) or not a(y))` is split into four conjunctions. -/
example : ∃ cs, fromFormula (.conj [.disj [A [x], B [x]], .disj [B [y], .neg "a" [y]]]) = some cs ∧ cs.length = 4 ∧
    (Formula.conj [.disj [A [x], B [x]], .disj [B [y], .neg "a" [y]]]).NonEmpty :=
  ⟨_, rfl, rfl, by simp [Formula.NonEmpty, Formula.NonEmpty.allNonEmpty]⟩

/-! ## C36: negation, implication and quantifiers -/

/-- **C36**: the negation of a formula is true exactly when the formula is false, if arguments always have values. -/
theorem c36_negate (X : Ext F) (D : DB F) (G : Aggs F) (V : Name → Prop) (σ : Name → Val F) (f f' : Formula F) (hf : f.Total X)
    (e : f.negate = some f') : f'.Holds X D G V σ ↔ ¬ f.Holds X D G V σ := negate_holds f hf f' e V σ

example : (Formula.implies (A [x]) (.disj [B [x], .neg "a" [y]])).negate = some (.conj [A [x], .conj [.neg "b" [x], A [y]]]) := rfl
example : (Formula.implies (A [x]) (.disj [B [x], .neg "a" [y]])).Total noExt := by
  have h : ∀ z : Name, TotalArgs noExt [.var z] := fun z σ => ⟨[σ z], by simp [FExpr.AllEvalTo, FExpr.EvalsTo]⟩
  exact ⟨h _, h _, h _, trivial⟩

/-- Why values are required: if the argument of an atom has no value, the atom and its negation are both false. -/
theorem c36_negate_undefined : ∃ f f' : Formula Empty, f.negate = some f' ∧ ∀ (D : DB Empty) (G : Aggs Empty) V σ,
    ¬ f.Holds noExt D G V σ ∧ ¬ f'.Holds noExt D G V σ := by
  refine ⟨.atom "a" [.call "f" []], .neg "a" [.call "f" []], rfl, fun D G V σ => ?_⟩
  simp [Formula.Holds, FExpr.AllEvalTo, FExpr.EvalsTo, noExt]

/-- **C36**: desugaring a body (implications, `forall`, `exists`, patterns without nesting, ranges) keeps its truth: it is true under an
assignment exactly when the result is true under some assignment with the same values of the user's variables. -/
theorem c36 (X : Ext F) (hX : X.ExactFloats) (D : DB F) (hD : RangeDB D) (G : Aggs F) (g : Nat → Bool) (V : Name → Prop)
    (hV : ∀ x, V x → x.IsUser) (f f' : Formula F) (hf : f.Wf X g) (hn : f.NamesIn Name.IsUser) (e : desugar f = .ok f') (σ : Name → Val F) :
    f.Holds X D G V σ ↔ ∃ σ' : Name → Val F, (∀ x, x.IsUser → σ' x = σ x) ∧ f'.Holds X D G V σ' := by
  have hr := walk_refines (G := G) hX hD _ f f' hf e
  constructor
  · intro h
    refine ⟨complete g σ, fun x hx => complete_user g σ x hx, (hr V hV _).2 (complete_complete g σ) ?_⟩
    exact (holds_congr (P := Name.IsUser) (fun x hx => (complete_user g σ x hx).symm) f hn V hV).1 h
  · rintro ⟨σ', h1, h2⟩
    exact (holds_congr (P := Name.IsUser) h1 f hn V hV).1 ((hr V hV σ').1 h2)

/-- **C36**: desugaring terminates (the number of steps `desugar` allows itself is sufficient). -/
theorem c36_terminates (f : Formula F) : desugar f ≠ .undef := walk_undef _ f (Nat.le_refl _)

/-- **C36**: desugaring does not panic if implications are between combinations of atoms. -/
theorem c36_accepts (f : Formula F) (hf : f.Accepted) : ∃ f', desugar f = .ok f' := by
  cases e : desugar f with
  | ok f' => exact ⟨f', rfl⟩
  | undef => exact absurd e (c36_terminates f)
  | panic => exact absurd e (walk_panic _ f hf)

/-- `forall(x: a(x) implies b(x))` and `not exists(x: a(x))`. -/
private def fa : Formula Empty := .quant 0 false "forall" [.user "x"] (.implies (A [x]) (B [x])) [] []
private def ne : Formula Empty := .quant 1 true "exists" [.user "x"] (A [x]) [] []

private theorem tx (z : Name) : TotalArgs noExt [.var z] := fun σ => ⟨[σ z], by simp [FExpr.AllEvalTo, FExpr.EvalsTo]⟩

example : (Formula.conj [fa, ne]).Wf noExt (fun n => n == 0) ∧ (Formula.conj [fa, ne]).NamesIn Name.IsUser ∧ (Formula.conj [fa, ne]).Accepted ∧
    ∃ f', desugar (.conj [fa, ne]) = .ok f' := by
  have hw : (Formula.conj [fa, ne]).Wf noExt (fun n => n == 0) := by
    simp [fa, ne, Formula.Wf, Formula.Wf.allWf, Formula.NamesIn, FExpr.AllNamesIn, FExpr.NamesIn, Name.IsUser, Formula.Total, tx, Formula.IsImplies]
  have hn : (Formula.conj [fa, ne]).NamesIn Name.IsUser := by
    simp [fa, ne, Formula.NamesIn, Formula.NamesIn.allNamesIn, FExpr.AllNamesIn, FExpr.NamesIn, Name.IsUser]
  have ha : (Formula.conj [fa, ne]).Accepted := by
    simp [fa, ne, Formula.Accepted, Formula.Accepted.allAccepted, Formula.Negatable]
  exact ⟨hw, hn, ha, c36_accepts _ ha⟩

/-- Finding: a constraint cannot be negated, so that `forall(x: a(x) implies x > 3)` and `x > 3 implies b(x)` make the compiler panic. -/
theorem c36_constraint_panics :
    desugar (.quant 0 false "forall" [.user "x"] (.implies (A [x]) (.constraint (.bin .gt x (.const (i 3))))) [] []) = .panic ∧
    desugar (.implies (.constraint (.bin .gt x (.const (i 3)))) (B [x])) = .panic := ⟨rfl, rfl⟩

/-! ## C67: nested expressions -/

/-- **C67**: the rules made from a rule whose body is built with `and` and `or` from atoms, negated atoms, constraints and aggregates, by
splitting the body and flattening all expressions, derive exactly the facts the rule derives (the marked extra assignments left out,
see C34). -/
theorem c67 (X : Ext F) (D : DB F) (G : Aggs F) (V : Name → Prop) (hV : ∀ x, V x → x.IsSource) (p : String) (args : List (FExpr F))
    (body : Formula F) (ha : FExpr.AllNamesIn Name.IsSource args) (hb : body.NamesIn Name.IsSource) (hne : body.NonEmpty) (hp : body.Plain)
    (rs : List (FBack F)) (e : ruleToBack p args body = some rs) (vs : List (Val F)) :
    BackDerives X D G V rs p vs ↔ Derives X D G V args body vs :=
  ruleToBack_derives hV p args body ha hb hne (plain_plainNeg body hp) e vs

/-- `q(x + 1) = a(x) and not b(x + x) or b(x)`. -/
private def nested : Formula Empty := .disj [.conj [A [x], .neg "b" [.bin .add x x]], B [x]]
example : ∃ rs, ruleToBack "q" [.bin .add x (.const (i 1))] nested = some rs ∧ rs.length = 2 ∧ nested.NonEmpty ∧ nested.Plain ∧
    nested.NamesIn Name.IsSource := by
  refine ⟨_, rfl, rfl, ?_, ?_, ?_⟩
  · simp [nested, Formula.NonEmpty, Formula.NonEmpty.allNonEmpty]
  · simp [nested, Formula.Plain, Formula.Plain.allPlain, PlainArgs, FExpr.NoWild]
  · simp [nested, Formula.NamesIn, Formula.NamesIn.allNamesIn, FExpr.AllNamesIn, FExpr.NamesIn, Name.IsSource]

/-- A wildcard inside an argument of a negated atom (`not a(_ + 1)`) is not read as "no value": with the fact `a(1)`, the compiled literals
are satisfied (taking 5 for the wildcard), although the formula as a whole, in which the wildcard stands for any value, is false. -/
theorem c67_nested_wildcard : ∃ (body : Formula Empty) (rs : List (FBack Empty)) (D : DB Empty), ruleToBack "q" [] body = some rs ∧
    BackDerives noExt D noAggs (fun _ => False) rs "q" [] ∧ ¬ Derives noExt D noAggs (fun _ => False) [] body [] := by
  refine ⟨.neg "a" [.bin .add .wild (.const (i 1))], _, fun p vs => p = "a" ∧ vs = [i 1], rfl, ?_, ?_⟩
  · refine ⟨_, List.mem_singleton.2 rfl, fun x => if x = .wc 1 then i 5 else i 6, ?_, rfl, rfl⟩
    intro l hl hh
    simp only [FExpr.flattenAll, FExpr.flatten, List.append_nil, List.nil_append, List.mem_cons] at hl
    rcases hl with rfl | rfl | hl
    · rintro ⟨τ, h1, -, h2⟩
      simp only [List.map_cons, List.map_nil, Term.val, List.cons.injEq, and_true] at h2
      rw [h1 _ (by simp)] at h2
      simp [i] at h2
    · rfl
    · have := litsHold_hints (X := noExt) (D := fun p vs => p = "a" ∧ vs = [i 1]) (G := noAggs) (V := fun _ => False)
        (σ := fun x => if x = .wc 1 then i 5 else i 6) (.flat 0) .add (.var (.wc 1)) (.const (i 1))
      exact this l hl hh
  · rintro ⟨σ, ⟨-, h⟩, -⟩
    refine h ⟨[i 1], ?_, rfl, rfl⟩
    simp only [FExpr.AllEvalTo, FExpr.EvalsTo]
    exact ⟨i 1, [], rfl, ⟨i 0, i 1, trivial, rfl, rfl⟩, rfl⟩

/-! ## C65: a compiled rule derives what its text says -/

/-- **C65**: desugaring a rule, splitting its body and flattening its expressions gives rules that derive exactly the facts its text
derives (the marked extra assignments left out, see C34), for bodies in which `forall` applies to an implication, what is negated always
has values, patterns are not nested, and inclusive ranges end below the largest integer. -/
theorem c65_partial (X : Ext F) (hX : X.ExactFloats) (D : DB F) (hD : RangeDB D) (G : Aggs F) (g : Nat → Bool) (V : Name → Prop)
    (hV : ∀ x, V x → x.IsUser) (p : String) (args : List (FExpr F)) (body body' : Formula F) (hf : body.Wf X g)
    (hn : body.NamesIn Name.IsUser) (ha : FExpr.AllNamesIn Name.IsUser args) (hne : body.NonEmpty) (hp : body.Plain)
    (e : desugar body = .ok body') (rs : List (FBack F)) (e' : ruleToBack p args body' = some rs) (vs : List (Val F)) :
    BackDerives X D G V rs p vs ↔ Derives X D G V args body vs := by
  have hus : ∀ x : Name, x.IsUser → x.IsSource := fun x hx => by cases x <;> simp_all [Name.IsUser, Name.IsSource]
  have hs := walk_names _ body body' (names_mono hus body hn) e
  obtain ⟨g1, g2⟩ := walk_good _ body body' ⟨hne, plain_plainNeg body hp⟩ e
  rw [ruleToBack_derives (fun x hx => hus x (hV x hx)) p args body' (exprsNames_mono hus args ha) hs g1 g2 e' vs]
  constructor
  · rintro ⟨σ', h1, h2⟩
    exact ⟨σ', (c36 X hX D hD G g V hV body body' hf hn e σ').2 ⟨σ', fun _ _ => rfl, h1⟩, h2⟩
  · rintro ⟨σ, h1, h2⟩
    obtain ⟨σ', h3, h4⟩ := (c36 X hX D hD G g V hV body body' hf hn e σ).1 h1
    exact ⟨σ', h4, (allEvalTo_congr (P := Name.IsUser) (fun x hx => (h3 x hx).symm) args ha vs).1 h2⟩

/-- `q(y + 1) = b(y) and forall(x: a(x) implies b(x)) and not exists(x: a(x))`. -/
private def full : Formula Empty := .conj [B [y], fa, ne]
example : ∃ body' rs, desugar full = .ok body' ∧ ruleToBack "q" [.bin .add y (.const (i 1))] body' = some rs ∧ full.Wf noExt (fun n => n == 0) ∧
    full.NamesIn Name.IsUser ∧ full.NonEmpty ∧ full.Plain := by
  refine ⟨_, _, rfl, rfl, ?_, ?_, ?_, ?_⟩
  · simp [full, fa, ne, Formula.Wf, Formula.Wf.allWf, Formula.NamesIn, FExpr.AllNamesIn, FExpr.NamesIn, Name.IsUser, Formula.Total, tx, Formula.IsImplies]
  · simp [full, fa, ne, Formula.NamesIn, Formula.NamesIn.allNamesIn, FExpr.AllNamesIn, FExpr.NamesIn, Name.IsUser]
  · simp [full, fa, ne, Formula.NonEmpty, Formula.NonEmpty.allNonEmpty]
  · simp [full, fa, ne, Formula.Plain, Formula.Plain.allPlain, PlainArgs, FExpr.NoWild]

/-! ## C66: patterns -/

/-- **C66 (partial)**: a pattern, nested to any depth, is true of the value of a variable exactly when the atoms it is replaced by are true
for some values of the variables made for the inner objects. -/
theorem c66_partial (X : Ext F) (hX : X.ExactFloats) (D : DB F) (G : Aggs F) (V : Name → Prop) (v : Name) (e : Entity F)
    (hv : ∀ n, v ≠ .adtVar v n) (hn : e.NamesIn (fun x => ∀ n, x ≠ .adtVar v n)) (σ : Name → Val F) :
    (Formula.case v e).Holds X D G V σ ↔
      ∃ σ' : Name → Val F, (∀ x, (∀ n, x ≠ .adtVar v n) → σ' x = σ x) ∧ (desugarCaseIs (.case v e)).Holds X D G V σ' := by
  cases e with
  | expr e =>
    have key : ∀ τ : Name → Val F, ((desugarCaseIs (Formula.case v (.expr e))).Holds X D G V τ ↔ (Formula.case v (.expr e)).Holds X D G V τ) := by
      intro τ
      simp only [desugarCaseIs, Formula.Holds, FExpr.EvalsTo, Entity.Matches]
      constructor
      · rintro ⟨a, b, rfl, h1, h2⟩
        rw [Back.evalBin_eq_iff hX] at h2
        rw [h2]; exact h1
      · intro h
        exact ⟨_, _, rfl, h, (Back.evalBin_eq_iff hX _ _).2 rfl⟩
    constructor
    · intro h
      exact ⟨σ, fun _ _ => rfl, (key σ).2 h⟩
    · rintro ⟨σ', h1, h2⟩
      have h3 := (key σ').1 h2
      simp only [Formula.Holds] at h3 ⊢
      rw [h1 v hv] at h3
      exact (matches_congr (P := fun x => ∀ n, x ≠ Name.adtVar v n) h1 _ hn _).1 h3
  | object f as =>
    simp only [Entity.NamesIn] at hn
    have key : ∀ τ : Name → Val F, ((desugarCaseIs (Formula.case v (.object f as))).Holds X D G V τ ↔
        (∀ g ∈ (Entity.args v as 0).2.1, g.Holds X D G V τ) ∧ ∃ vs, FExpr.AllEvalTo X τ (Entity.args v as 0).1 vs ∧ D ("adt#" ++ f) (τ v :: vs)) := by
      intro τ
      simp only [desugarCaseIs, Formula.Holds, allHold_iff, List.mem_append, List.mem_singleton, or_imp, forall_and, forall_eq]
      refine and_congr_right fun _ => ?_
      simp only [FExpr.AllEvalTo, FExpr.EvalsTo]
      constructor
      · rintro ⟨vs, ⟨w, ws, rfl, rfl, h⟩, hd⟩
        exact ⟨ws, h, hd⟩
      · rintro ⟨ws, h, hd⟩
        exact ⟨_, ⟨_, ws, rfl, rfl, h⟩, hd⟩
    constructor
    · intro h
      simp only [Formula.Holds, Entity.Matches] at h
      obtain ⟨vs, h1, h2⟩ := h
      obtain ⟨τ, t1, t2, t3⟩ := args_complete (G := G) (V := V) v as hn 0 σ vs h1
      refine ⟨τ, fun x hx => t1 x (fun n _ _ => hx n), (key τ).2 ⟨t2, vs, t3, ?_⟩⟩
      rwa [t1 v (fun n _ _ => hv n)]
    · rintro ⟨σ', h1, h2⟩
      obtain ⟨h3, vs, h4, h5⟩ := (key σ').1 h2
      have h6 := args_sound v as 0 h3 vs h4
      simp only [Formula.Holds, Entity.Matches]
      refine ⟨vs, (allMatch_congr (P := fun x => ∀ n, x ≠ Name.adtVar v n) h1 as hn vs).1 h6, ?_⟩
      rwa [← h1 v hv]

/-- `case x is Add(Const(1), Const(2))`: the theorem applies. -/
example : (∀ n, (Name.user "x") ≠ .adtVar (.user "x") n) ∧
    (Entity.object "Add" [.object "Const" [.expr (.const (i 1))], .object "Const" [.expr (.const (i 2))]] : Entity Empty).NamesIn
      (fun z => ∀ n, z ≠ .adtVar (.user "x") n) := by
  simp [Entity.NamesIn, Entity.AllNamesIn, FExpr.NamesIn]

/-- Entity 0 is `Add(entity 1, entity 2)`, entity 1 is `Const(1)`, entity 2 is `Const(2)`. -/
private def tree : DB Empty := fun p vs =>
  (p = "adt#Add" ∧ vs = [.entity 0, .entity 1, .entity 2]) ∨ (p = "adt#Const" ∧ vs = [.entity 1, i 1]) ∨ (p = "adt#Const" ∧ vs = [.entity 2, i 2])

private def left1 : Formula Empty := .case (.user "x") (.object "Add" [.object "Const" [.expr (.const (i 1))], .expr .wild])
private def right2 : Formula Empty := .case (.user "x") (.object "Add" [.expr .wild, .object "Const" [.expr (.const (i 2))]])

/-- Finding: two nested patterns on the same variable in one conjunction share the variables made for their inner objects, since the
counter starts at 0 for each. `case x is Add(Const(1), _) and case x is Add(_, Const(2))` is true of `Add(Const(1), Const(2))`, but
what it is desugared into is false under every assignment. -/
theorem c66_two_patterns : ∃ f', desugar (.conj [left1, right2]) = .ok f' ∧
    (∀ G V (σ : Name → Val Empty), σ (.user "x") = .entity 0 → (Formula.conj [left1, right2]).Holds noExt tree G V σ) ∧
    ∀ G V (σ : Name → Val Empty), ¬ f'.Holds noExt tree G V σ := by
  refine ⟨_, rfl, ?_, ?_⟩
  · intro G V σ h
    simp only [left1, right2, Formula.Holds, Formula.Holds.allHold, Entity.Matches, Entity.AllMatch, FExpr.EvalsTo, h, and_true]
    refine ⟨⟨[.entity 1, .entity 2], ⟨_, _, rfl, ⟨[i 1], ⟨_, _, rfl, rfl, rfl⟩, ?_⟩, _, _, rfl, trivial, rfl⟩, ?_⟩,
      ⟨[.entity 1, .entity 2], ⟨_, _, rfl, trivial, _, _, rfl, ⟨[i 2], ⟨_, _, rfl, rfl, rfl⟩, ?_⟩, rfl⟩, ?_⟩⟩ <;> simp [tree]
  · intro G V σ h
    simp only [Formula.Holds, Formula.Holds.allHold, and_true, FExpr.AllEvalTo, FExpr.EvalsTo] at h
    obtain ⟨⟨h1, h2⟩, h3, h4⟩ := h
    obtain ⟨_, ⟨_, _, rfl, rfl, _, _, rfl, rfl, rfl⟩, h1⟩ := h1
    obtain ⟨_, ⟨_, _, rfl, rfl, _, _, rfl, rfl, rfl⟩, h3⟩ := h3
    simp only [tree, i, List.cons.injEq, and_true, Val.int.injEq, true_and] at h1 h3
    have e1 : σ (.adtVar (.user "x") 0) = .entity 1 := by
      rcases h1 with ⟨h, -⟩ | ⟨-, h⟩ | ⟨-, h⟩
      · exact absurd h (by decide)
      · exact h
      · exact absurd h.2 (by decide)
    have e2 : σ (.adtVar (.user "x") 0) = .entity 2 := by
      rcases h3 with ⟨h, -⟩ | ⟨-, h⟩ | ⟨-, h⟩
      · exact absurd h (by decide)
      · exact absurd h.2 (by decide)
      · exact h
    rw [e1] at e2
    exact absurd e2 (by decide)

/-! ## C68: ranges -/

/-- **C68 (partial)**: `x in a..b` says that `x` is one of `a, a+1, ..., b-1`, and `x in a..=b` that it is one of `a, ..., b`, the latter
if `b` is not the largest integer. -/
theorem c68_partial (X : Ext F) (D : DB F) (hD : RangeDB D) (G : Aggs F) (V : Name → Prop) (σ : Name → Val F) (v : Name) (lo hi : FExpr F)
    (inclusive : Bool) (hb : inclusive = true → ∀ b, hi.EvalsTo X σ (.int .i32 b) → IntTy.i32.lo ≤ b ∧ b < IntTy.i32.hi) :
    (desugarRange (.range v lo hi inclusive)).Holds X D G V σ ↔
      ∃ a b c, lo.EvalsTo X σ (.int .i32 a) ∧ hi.EvalsTo X σ (.int .i32 b) ∧ σ v = .int .i32 c ∧
        a ≤ c ∧ (if inclusive then c ≤ b else c < b) := by
  have := (range_holds (G := G) (V := V) (σ := σ) hD v lo hi inclusive hb)
  simpa only [Formula.Holds] using this

/-- `x in 1..=3` is true of 3 in the example database. -/
example : (Formula.range (.user "x") (.const (i 1)) (.const (i 3)) true).Holds noExt db noAggs (fun _ => False) (fun _ => i 3) := by
  simp only [Formula.Holds, FExpr.EvalsTo]
  exact ⟨1, 3, 3, rfl, rfl, rfl, by decide, by decide⟩

/-- Finding: `x in 2147483646..=2147483647` loses the value 2147483647, because adding one to the upper bound saturates. -/
theorem c68_inclusive_max : ∃ (f : Formula Empty) (σ : Name → Val Empty), ∀ (D : DB Empty) (_ : RangeDB D) G V,
    f.Holds noExt D G V σ ∧ ¬ (desugarRange f).Holds noExt D G V σ := by
  refine ⟨.range (.user "x") (.const (i 2147483646)) (.const (i 2147483647)) true, fun _ => i 2147483647, fun D hD G V => ⟨?_, ?_⟩⟩
  · simp only [Formula.Holds, FExpr.EvalsTo]
    exact ⟨_, _, _, rfl, rfl, rfl, by decide, by decide⟩
  · simp only [desugarRange, Formula.Holds, FExpr.AllEvalTo, FExpr.EvalsTo]
    rintro ⟨_, ⟨_, _, rfl, rfl, _, _, rfl, ⟨_, _, rfl, rfl, h⟩, _, _, rfl, rfl, rfl⟩, hd⟩
    obtain ⟨a, b, c, h1, h2, h3⟩ := (hD _).1 hd
    simp only [i, List.cons.injEq, Val.int.injEq, true_and, and_true] at h1
    obtain ⟨rfl, rfl, rfl⟩ := h1
    have : evalBin noExt .run .add (i 2147483647) (i 1) = .ok (i 2147483647) := by decide +kernel
    rw [this] at h
    simp [i] at h
    omega

/-! ## C69: several heads -/

/-- **C69 (partial)**: a rule with several heads, whose body is built with `and` and `or` from atoms, negated atoms, constraints and
aggregates, is compiled into rules that derive, for each head, what the rule with that single head derives. -/
theorem c69_partial (X : Ext F) (D : DB F) (G : Aggs F) (V : Name → Prop) (hV : ∀ x, V x → x.IsSource) (as : List (String × List (FExpr F)))
    (body : Formula F) (hb : body.NamesIn Name.IsSource) (hne : body.NonEmpty) (hpl : body.Plain)
    (has : ∀ a ∈ as, FExpr.AllNamesIn Name.IsSource a.2 ∧ ∃ bs, ruleToBack a.1 a.2 body = some bs)
    (rs : List (FRule F)) (e : transformRule ⟨.conj as, body⟩ = .ok rs) (p : String) (vs : List (Val F)) :
    (∃ r ∈ rs, ∃ args bs, r.head = .atom p args ∧ ruleToBack p args r.body = some bs ∧ BackDerives X D G V bs p vs) ↔
      ∃ args, (p, args) ∈ as ∧ Derives X D G V args body vs := by
  simp only [transformRule] at e
  obtain ⟨b, e1, e⟩ := bind_ok e
  simp only [Outcome.ok.injEq] at e
  subst e
  constructor
  · rintro ⟨r, hr, args, bs, h1, h2, h3⟩
    obtain ⟨a, ha, rfl⟩ := List.mem_map.1 hr
    simp only [FHead.atom.injEq] at h1
    obtain ⟨rfl, rfl⟩ := h1
    exact ⟨_, ha, (c67 X D G V hV _ _ body (has a ha).1 hb hne hpl bs h2 vs).1 h3⟩
  · rintro ⟨args, h1, h2⟩
    obtain ⟨hn, bs, e2⟩ := has _ h1
    exact ⟨_, List.mem_map.2 ⟨_, h1, rfl⟩, args, bs, rfl, e2, (c67 X D G V hV _ _ body hn hb hne hpl bs e2 vs).2 h2⟩

example : ∃ rs, transformRule (⟨.conj [("p", [x]), ("q", [x])], A [x]⟩ : FRule Empty) = .ok rs ∧ rs.length = 2 := ⟨_, rfl, rfl⟩

/-- Finding: if the body of a rule with several heads uses sugar (here an implication), the compiler panics, although it accepts the same rule with each
single head: the copies made for the heads are not desugared. -/
theorem c69_sugar_panics : ∃ (body : Formula Empty),
    (∃ b rs, transformRule ⟨.atom "p" [x], body⟩ = .ok [⟨.atom "p" [x], b⟩] ∧ ruleToBack "p" [x] b = some rs) ∧
    (∃ b rs, transformRule ⟨.atom "q" [x], body⟩ = .ok [⟨.atom "q" [x], b⟩] ∧ ruleToBack "q" [x] b = some rs) ∧
    transformRule ⟨.conj [("p", [x]), ("q", [x])], body⟩ = .ok [⟨.atom "p" [x], body⟩, ⟨.atom "q" [x], body⟩] ∧
    ruleToBack "p" [x] body = none ∧ ruleToBack "q" [x] body = none :=
  ⟨.conj [A [x], .implies (B [x]) (A [x])], ⟨_, _, rfl, rfl⟩, ⟨_, _, rfl, rfl⟩, rfl, rfl, rfl⟩

end Scallop.Front
