import Verif.Proof.Back2
import Mathlib.Data.Int.Notation

/-!
# Rule-level optimizations: the properties

C30 (constant folding), C31 (constant propagation), C32 (equality propagation), C60 (the whole optimization of a rule).
-/

namespace Scallop.Back

variable {N F R : Type}

/-! ## Test data -/

/-- No floats, no casts, no foreign functions; entities are identified by the number of arguments. -/
def noExt : Ext Empty where
  fadd := fun a _ => a
  fsub := fun a _ => a
  fmul := fun a _ => a
  fdiv := fun a _ => a
  fneg := fun a => a
  isNan := fun _ => false
  feq := fun a _ => a.elim
  flt := fun a _ => a.elim
  fle := fun a _ => a.elim
  cast := fun _ _ v => .ok v
  call := fun _ _ => .undef
  encode := fun _ args => args.length

theorem noExt_exact : noExt.ExactFloats := fun a => a.elim
theorem noExt_cast : noExt.CastAgrees := fun _ _ _ => rfl

private abbrev i (n : Int) : Val Empty := .int .i32 n
private abbrev V (x : String) : Term String Empty := .var x
private abbrev K (n : Int) : Term String Empty := .const (i n)
private abbrev at1 (p : String) (args : List (Term String Empty)) : Lit String Empty Unit := .atom ⟨p, args⟩

/-! ## C30: constant folding -/

/-- **C30 (partial)**: if constant folding does not panic, it produces a rule with exactly the same derivations, for every rule in which
no entity is created from constants only. The two conditions on the environment are that float equality is identity and that
casts evaluated by the compiler agree with the engine. -/
theorem c30_partial [DecidableEq N] (X : Ext F) (hX : X.ExactFloats) (hC : X.CastAgrees) (Red : R → List (Val F) → Prop)
    (r r' : Rule N F R) (hn : ∀ x f args, Lit.assign x (.new f args) ∈ r.body → ∃ y, Term.var y ∈ args)
    (h : constantFold X r = some r') : SameDerivations X Red r r' := by
  refine constantFold_same hX hC Red (fun l hl => ?_) h
  cases l with
  | assign x e =>
    cases e with
    | new f args =>
      obtain ⟨y, hy⟩ := hn x f args hl
      simp only [Lit.constNew, List.all_eq_false]
      exact ⟨_, hy, by simp [Term.const?]⟩
    | _ => rfl
  | _ => rfl

/-- `q(x) :- p(x), y := 2 + 3, y < x` becomes `q(x) :- p(x), y == 5, y < x`. -/
example : constantFold noExt (⟨.atom ⟨"q", [V "x"]⟩,
      [at1 "p" [V "x"], .assign "y" (.bin .add (K 2) (K 3)), .cbin .lt (V "y") (V "x")]⟩ : Rule String Empty Unit) =
    some ⟨.atom ⟨"q", [V "x"]⟩, [at1 "p" [V "x"], .cbin .eq (V "y") (K 5), .cbin .lt (V "y") (V "x")]⟩ := by
  decide +kernel

/-- **C30 is false in general (1)**: folding the creation of an entity from constants forgets the entity. The rule
`q(e) :- p(x), e := new Nil()` creates the entity it stores in `q`; after folding, nothing creates it, so that the relation
holding the entities of that variant stays empty. -/
theorem c30_entity_lost :
    let r : Rule String Empty Unit := ⟨.atom ⟨"q", [V "e"]⟩, [at1 "p" [V "x"], .assign "e" (.new "Nil" [])]⟩
    ∃ r', constantFold noExt r = some r' ∧
      Derives noExt (fun _ _ => False) r (false, [("q", [.entity 0])]) [.pos "p" [i 7], .entity "Nil" []] ∧
      ∀ h us, Derives noExt (fun _ _ => False) r' h us → ∀ f args, Use.entity f args ∉ us := by
  refine ⟨⟨.atom ⟨"q", [V "e"]⟩, [at1 "p" [V "x"], .cbin .eq (V "e") (.const (.entity 0))]⟩, by decide +kernel, ?_, ?_⟩
  · refine ⟨fun s => if s = "e" then .entity 0 else i 7, ?_, by decide +kernel, by decide +kernel⟩
    intro l hl
    simp only [List.mem_cons, List.not_mem_nil, or_false] at hl
    rcases hl with rfl | rfl
    · trivial
    · rfl
  · rintro h us ⟨σ, _, _, rfl⟩ f args
    simp [Lit.uses]

/-- **C30 is false in general (2)**: comparing two symbol constants makes the compiler panic, although the engine compares symbols
without trouble. `q(x) :- p(x), s"a" != s"b"` is not compiled. -/
theorem c30_symbol_panic :
    let r : Rule String Empty Unit :=
      ⟨.atom ⟨"q", [V "x"]⟩, [at1 "p" [V "x"], .cbin .neq (.const (.symbol "a")) (.const (.symbol "b"))]⟩
    constantFold noExt r = none ∧ Derives noExt (fun _ _ => False) r (false, [("q", [i 7])]) [.pos "p" [i 7]] := by
  refine ⟨by decide +kernel, fun _ => i 7, ?_, by decide +kernel, by decide +kernel⟩
  intro l hl
  simp only [List.mem_cons, List.not_mem_nil, or_false] at hl
  rcases hl with rfl | rfl
  · trivial
  · show evalBin noExt .run .neq _ _ = _
    decide +kernel

/-- One float, which is not equal to itself. -/
def nanExt : Ext Unit where
  fadd := fun _ _ => ()
  fsub := fun _ _ => ()
  fmul := fun _ _ => ()
  fdiv := fun _ _ => ()
  fneg := fun a => a
  isNan := fun _ => true
  feq := fun _ _ => false
  flt := fun _ _ => false
  fle := fun _ _ => false
  cast := fun _ _ v => .ok v
  call := fun _ _ => .undef
  encode := fun _ args => args.length

/-- **C30 is false in general (3)**: `x == x` is folded to `true`, which adds a derivation when `x` is NaN. -/
theorem c30_nan :
    let r : Rule String Unit Unit := ⟨.atom ⟨"q", [.var "x"]⟩, [.atom ⟨"p", [.var "x"]⟩, .cbin .eq (.var "x") (.var "x")]⟩
    ∃ r', constantFold nanExt r = some r' ∧
      Derives nanExt (fun _ _ => False) r' (false, [("q", [.float .f32 ()])]) [.pos "p" [.float .f32 ()]] ∧
      ¬ Derives nanExt (fun _ _ => False) r (false, [("q", [.float .f32 ()])]) [.pos "p" [.float .f32 ()]] := by
  refine ⟨⟨.atom ⟨"q", [.var "x"]⟩, [.atom ⟨"p", [.var "x"]⟩, .tt]⟩, by decide +kernel, ?_, ?_⟩
  · refine ⟨fun _ => .float .f32 (), ?_, by decide +kernel, by decide +kernel⟩
    intro l hl
    simp only [List.mem_cons, List.not_mem_nil, or_false] at hl
    rcases hl with rfl | rfl <;> trivial
  · rintro ⟨σ, h1, h2, h3⟩
    have hx : σ "x" = .float .f32 () := by
      simpa [Head.inst, Atom.inst, Term.val] using h2
    have := h1 (.cbin .eq (.var "x") (.var "x")) (by simp)
    simp [Lit.Holds, Term.val, hx, COp.toBin, evalBin, evalFloat, nanExt] at this

/-- Folding panics only if evaluating one of the constant expressions or comparisons of the rule panics. -/
theorem c30_panics [DecidableEq N] (X : Ext F) (r : Rule N F R) (h : constantFold X r = none) :
    ∃ l ∈ r.body,
      (∃ x op a b, l = .assign x (.bin op (.const a) (.const b)) ∧ evalBin X .compile op a b = .panic) ∨
      (∃ x op a, l = .assign x (.un op (.const a)) ∧ evalUn X .compile op a = .panic) ∨
      (∃ op a b, l = .cbin op (.const a) (.const b) ∧ ∀ v, evalBin X .compile op.toBin a b ≠ .ok (.bool v)) ∨
      (∃ a, l = .cnot (.const a) ∧ evalUn X .compile .not a = .panic) := by
  simp only [constantFold, Option.map_eq_none_iff] at h
  have key : ∀ b : List (Lit N F R), b.mapM (foldLit X) = none → ∃ l ∈ b, foldLit X l = none := by
    intro b
    induction b with
    | nil => intro h; simp at h
    | cons l b ih =>
      intro h
      cases hl : foldLit X l with
      | none => exact ⟨l, by simp, hl⟩
      | some l' =>
        cases hb : b.mapM (foldLit X) with
        | none => obtain ⟨m, hm, e⟩ := ih hb; exact ⟨m, by simp [hm], e⟩
        | some b' => simp [List.mapM_cons, hl, hb] at h
  obtain ⟨l, hl, hn⟩ := key _ h
  refine ⟨l, hl, ?_⟩
  have hres : ∀ (x : N) o, foldResult (F := F) (R := R) x o = none → o = .panic := by
    intro x o; cases o <;> simp [foldResult]
  unfold foldLit at hn
  split at hn
  · rename_i x op a b; exact .inl ⟨x, op, a, b, rfl, hres _ _ hn⟩
  · rename_i x op a; exact .inr (.inl ⟨x, op, a, rfl, hres _ _ hn⟩)
  · cases hn
  · cases hn
  · split at hn <;> cases hn
  · rename_i op a b
    refine .inr (.inr (.inl ⟨op, a, b, rfl, fun v hv => ?_⟩))
    rw [hv] at hn; simp [foldTest, Val.asBool?] at hn
  · cases hn
  · cases hn
  · rename_i a
    refine .inr (.inr (.inr ⟨a, rfl, ?_⟩))
    cases a <;> simp [evalUn, foldTest, Val.asBool?] at hn ⊢
  · cases hn

/-! ## C31: constant propagation -/

/-- **C31 (partial)**: constant propagation always returns a rule, and if no assigned variable is required to equal a constant, the new
rule has exactly the same derivations. -/
theorem c31_partial [DecidableEq N] [DecidableEq F] (X : Ext F) (hX : X.ExactFloats) (Red : R → List (Val F) → Prop)
    (r : Rule N F R)
    (hass : ∀ x e, Lit.assign x e ∈ r.body →
      ∀ c, Lit.cbin .eq (.var x) (.const c) ∉ r.body ∧ Lit.cbin .eq (.const c) (.var x) ∉ r.body) :
    ∃ r', constantProp X r = some r' ∧ SameDerivations X Red r r' := by
  obtain ⟨r', hr'⟩ := Option.isSome_iff_exists.mp (constantProp_isSome X r)
  exact ⟨r', hr', fun hd us => ⟨constantProp_complete hX Red hr' (fun x e hm _ => hass x e hm) hd us,
    constantProp_sound hX Red hr' hass hd us⟩⟩

/-- Constant propagation never loses a derivation, as long as no created entity is required to equal a constant. -/
theorem c31_complete [DecidableEq N] [DecidableEq F] (X : Ext F) (hX : X.ExactFloats) (Red : R → List (Val F) → Prop)
    (r : Rule N F R)
    (hnew : ∀ x f args, Lit.assign x (.new f args) ∈ r.body →
      ∀ c, Lit.cbin .eq (.var x) (.const c) ∉ r.body ∧ Lit.cbin .eq (.const c) (.var x) ∉ r.body) :
    ∃ r', constantProp X r = some r' ∧ ∀ hd us, Derives X Red r hd us → Derives X Red r' hd us := by
  obtain ⟨r', hr'⟩ := Option.isSome_iff_exists.mp (constantProp_isSome X r)
  refine ⟨r', hr', constantProp_complete hX Red hr' (fun x e hm hn => ?_)⟩
  cases e <;> first | exact hnew x _ _ hm | cases hn

/-- `q(x, y) :- p(x, y), x == 3, y < x` becomes `q(3, y) :- p(3, y), y < 3`. -/
example : constantProp noExt (⟨.atom ⟨"q", [V "x", V "y"]⟩,
      [at1 "p" [V "x", V "y"], .cbin .eq (V "x") (K 3), .cbin .lt (V "y") (V "x")]⟩ : Rule String Empty Unit) =
    some ⟨.atom ⟨"q", [K 3, V "y"]⟩, [at1 "p" [K 3, V "y"], .cbin .lt (V "y") (K 3)]⟩ := by
  decide +kernel

/-- **C31 is false in general**: a requirement on the value of an expression is dropped. `q(x, y) :- p(x, y), x * y == 6` is written
with an auxiliary variable as `p(x, y), z := x * y, z == 6`; propagating `z = 6` removes both the constraint and the
assignment, so that the rule derives `q(1, 1)` from `p(1, 1)`. -/
theorem c31_constraint_lost :
    let r : Rule String Empty Unit := ⟨.atom ⟨"q", [V "x", V "y"]⟩,
      [at1 "p" [V "x", V "y"], .cbin .eq (V "z") (K 6), .assign "z" (.bin .mul (V "x") (V "y"))]⟩
    ∃ r', constantProp noExt r = some r' ∧
      Derives noExt (fun _ _ => False) r' (false, [("q", [i 1, i 1])]) [.pos "p" [i 1, i 1]] ∧
      ¬ ∃ us, Derives noExt (fun _ _ => False) r (false, [("q", [i 1, i 1])]) us := by
  refine ⟨⟨.atom ⟨"q", [V "x", V "y"]⟩, [at1 "p" [V "x", V "y"], .tt]⟩, by decide +kernel, ?_, ?_⟩
  · refine ⟨fun _ => i 1, ?_, by decide +kernel, by decide +kernel⟩
    intro l hl
    simp only [List.mem_cons, List.not_mem_nil, or_false] at hl
    rcases hl with rfl | rfl <;> trivial
  · rintro ⟨us, σ, h1, h2, _⟩
    have hxy : σ "x" = i 1 ∧ σ "y" = i 1 := by simpa [Head.inst, Atom.inst, Term.val] using h2
    have e1 := h1 (.cbin .eq (V "z") (K 6)) (by simp)
    have e2 := h1 (.assign "z" (.bin .mul (V "x") (V "y"))) (by simp)
    simp only [Lit.Holds, COp.toBin, Term.val, evalBin_eq_iff noExt_exact] at e1
    simp only [Lit.Holds, AExpr.val, Term.val, hxy.1, hxy.2, e1] at e2
    revert e2; decide +kernel

/-! ## C32: equality propagation -/

/-- Equality propagation always returns a rule and never loses a derivation. -/
theorem c32_complete [DecidableEq N] (X : Ext F) (hX : X.ExactFloats) (Red : R → List (Val F) → Prop)
    (foreign : String → Option Nat) (r : Rule N F R) :
    ∃ r', propagateEquality foreign r = some r' ∧ ∀ hd us, Derives X Red r hd us → Derives X Red r' hd us := by
  obtain ⟨b, hb⟩ := Option.isSome_iff_exists.mp (boundedVars_isSome foreign r.body)
  exact ⟨_, by rw [propagateEquality, hb]; rfl, propagateEquality_complete hX Red foreign (by rw [propagateEquality, hb]; rfl)⟩

/-- **C32 (partial)**: if no variable occurs in two of the equalities `v == w` between variables, equality propagation preserves the
derivations exactly. -/
theorem c32_partial [DecidableEq N] (X : Ext F) (hX : X.ExactFloats) (Red : R → List (Val F) → Prop)
    (foreign : String → Option Nat) (r : Rule N F R)
    (hp : (r.body.filterMap (fun l => match l with | .cbin .eq (.var v) (.var w) => some (v, w) | _ => none)).Pairwise
      (fun p q => p.1 ≠ q.1 ∧ p.1 ≠ q.2 ∧ p.2 ≠ q.1 ∧ p.2 ≠ q.2)) :
    ∃ r', propagateEquality foreign r = some r' ∧ SameDerivations X Red r r' := by
  obtain ⟨r', hr', hc⟩ := c32_complete X hX Red foreign r
  exact ⟨r', hr', fun hd us => ⟨hc hd us, propagateEquality_sound hX Red foreign hr' (good_of_disjoint foreign r hp) hd us⟩⟩

/-- `q(x, y) :- p(x, z), x == y` becomes `q(y, y) :- p(y, z)`. -/
example : propagateEquality (fun _ => none) (⟨.atom ⟨"q", [V "x", V "y"]⟩,
      [at1 "p" [V "x", V "z"], .cbin .eq (V "x") (V "y")]⟩ : Rule String Empty Unit) =
    some ⟨.atom ⟨"q", [V "y", V "y"]⟩, [at1 "p" [V "y", V "z"]]⟩ := by
  decide +kernel

/-- **C32 is false in general**: a chain of equalities is broken. `q(a, c) :- p(a), s(c), a == b, b == c` becomes
`q(b, c) :- p(b), s(c)`, which derives `q(1, 2)` from `p(1)` and `s(2)`. -/
theorem c32_chain_broken :
    let r : Rule String Empty Unit := ⟨.atom ⟨"q", [V "a", V "c"]⟩,
      [at1 "p" [V "a"], at1 "s" [V "c"], .cbin .eq (V "a") (V "b"), .cbin .eq (V "b") (V "c")]⟩
    ∃ r', propagateEquality (fun _ => none) r = some r' ∧
      Derives noExt (fun _ _ => False) r' (false, [("q", [i 1, i 2])]) [.pos "p" [i 1], .pos "s" [i 2]] ∧
      ¬ ∃ us, Derives noExt (fun _ _ => False) r (false, [("q", [i 1, i 2])]) us := by
  refine ⟨⟨.atom ⟨"q", [V "b", V "c"]⟩, [at1 "p" [V "b"], at1 "s" [V "c"]]⟩, by decide +kernel, ?_, ?_⟩
  · refine ⟨fun s => if s = "b" then i 1 else i 2, ?_, by decide +kernel, by decide +kernel⟩
    intro l hl
    simp only [List.mem_cons, List.not_mem_nil, or_false] at hl
    rcases hl with rfl | rfl <;> trivial
  · rintro ⟨us, σ, h1, h2, _⟩
    have hxy : σ "a" = i 1 ∧ σ "c" = i 2 := by simpa [Head.inst, Atom.inst, Term.val] using h2
    have e1 := h1 (.cbin .eq (V "a") (V "b")) (by simp)
    have e2 := h1 (.cbin .eq (V "b") (V "c")) (by simp)
    simp only [Lit.Holds, COp.toBin, Term.val, evalBin_eq_iff noExt_exact] at e1 e2
    rw [hxy.1] at e1
    rw [← e1, hxy.2] at e2
    revert e2; decide +kernel

/-! ## C60: optimizing a rule -/

/-- The number of rewritings that can still happen: two for an assignment, one for a constraint. -/
def budget (r : Rule N F R) : Nat :=
  (r.body.map (fun l => match l with | .assign _ _ => 2 | .cbin _ _ _ => 1 | .cnot _ => 1 | _ => 0)).sum

/-- **C60 (termination)**: the loop of constant folding and propagation terminates on every rule: after at most
`budget r + 1` iterations it has stopped (possibly by a panic). -/
theorem c60_terminates [DecidableEq N] [DecidableEq F] [DecidableEq R] (X : Ext F) (r : Rule N F R) :
    foldPropLoop X (budget r + 1) r ≠ none := by
  refine foldPropLoop_terminates X r _ ?_
  have : weight r.body = budget r := by
    simp only [weight, budget]
    congr 1
  omega

/-- **C60 (no answer is lost)**: for a rule that creates no entities, if equality propagation followed by the folding loop and the
removal of `true` literals succeeds, the optimized rule has every derivation of the original. -/
theorem c60_complete [DecidableEq N] [DecidableEq F] [DecidableEq R] (X : Ext F) (hX : X.ExactFloats) (hC : X.CastAgrees)
    (Red : R → List (Val F) → Prop) (foreign : String → Option Nat) (r r1 r2 : Rule N F R)
    (hn : ∀ x f args, Lit.assign x (.new f args) ∉ r.body)
    (h1 : propagateEquality foreign r = some r1) (fuel : Nat) (h2 : foldPropLoop X fuel r1 = some (some r2))
    (hd) (us) (hder : Derives X Red r hd us) : Derives X Red (removeTrue r2) hd us := by
  have d1 := propagateEquality_complete hX Red foreign h1 hd us hder
  have hn1 : NoNew r1.body := by
    simp only [propagateEquality, Option.map_eq_some_iff] at h1
    obtain ⟨b, _, rfl⟩ := h1
    intro l hl
    obtain ⟨m, hm, rfl⟩ := List.mem_map.mp hl
    have hm' := (List.mem_filter.mp hm).1
    cases m with
    | assign x e =>
      cases e with
      | new f args => exact absurd hm' (hn x f args)
      | _ => rfl
    | _ => rfl
  exact (removeTrue_same X Red r2 hd us).mp (foldPropLoop_complete hX hC Red fuel hn1 h2 hd us d1)

/-- **C60 (exactness, partial)**: for a rule without conditional expressions and entity creation, in which every variable is assigned at
most once and assigned variables do not occur in equality constraints, the folding loop preserves the derivations exactly. -/
theorem c60_partial [DecidableEq N] [DecidableEq F] [DecidableEq R] (X : Ext F) (hX : X.ExactFloats) (hC : X.CastAgrees)
    (Red : R → List (Val F) → Prop) (r r' : Rule N F R)
    (hn : ∀ x f args, Lit.assign x (.new f args) ∉ r.body)
    (hi : ∀ x c t e, Lit.assign x (.ite c t e) ∉ r.body)
    (ho : (r.body.filterMap (fun l => match l with | .assign x _ => some x | _ => none)).Nodup)
    (ha : ∀ x e a b, Lit.assign x e ∈ r.body → Lit.cbin .eq a b ∈ r.body → a ≠ .var x ∧ b ≠ .var x)
    (fuel : Nat) (h : foldPropLoop X fuel r = some (some r')) : SameDerivations X Red r r' := by
  refine foldPropLoop_same hX hC Red fuel ⟨?_, ?_, ho, ?_⟩ h
  · intro l hl
    cases l with
    | assign x e =>
      cases e with
      | new f args => exact absurd hl (hn x f args)
      | _ => rfl
    | _ => rfl
  · intro l hl
    cases l with
    | assign x e =>
      cases e with
      | ite c t e => exact absurd hl (hi x c t e)
      | _ => rfl
    | _ => rfl
  · intro x hx hx'
    simp only [lefts, List.mem_filterMap] at hx
    obtain ⟨l, hl, e⟩ := hx
    simp only [eqVars, List.mem_flatMap] at hx'
    obtain ⟨m, hm, e'⟩ := hx'
    cases l with
    | assign y ex =>
      simp only [Option.some.injEq] at e
      subst e
      cases m with
      | cbin op a b =>
        cases op with
        | eq =>
          obtain ⟨n1, n2⟩ := ha y ex a b hl hm
          simp only [List.mem_filterMap, List.mem_cons, List.not_mem_nil, or_false, exists_eq_or_imp, exists_eq_left] at e'
          rcases e' with e' | e'
          · cases a with
            | var z => simp only [Term.var?, Option.some.injEq] at e'; exact n1 (by rw [e'])
            | const c => cases e'
          · cases b with
            | var z => simp only [Term.var?, Option.some.injEq] at e'; exact n2 (by rw [e'])
            | const c => cases e'
        | _ => simp at e'
      | _ => simp at e'
    | _ => cases e

/-- `q(x, y) :- p(x), y := x + w, w := 1 + 1, x < 10`: folding gives `w == 2`, propagation then `y := x + 2`. -/
example : foldPropLoop noExt 10 (⟨.atom ⟨"q", [V "x", V "y"]⟩,
      [at1 "p" [V "x"], .assign "y" (.bin .add (V "x") (V "w")), .assign "w" (.bin .add (K 1) (K 1)),
        .cbin .lt (V "x") (K 10)]⟩ : Rule String Empty Unit) =
    some (some ⟨.atom ⟨"q", [V "x", V "y"]⟩,
      [at1 "p" [V "x"], .assign "y" (.bin .add (V "x") (K 2)), .cbin .lt (V "x") (K 10)]⟩) := by
  decide +kernel

/-- Removing `true` literals changes nothing; a rule removed because of a `false` literal has no derivations. -/
theorem c60_true_false (X : Ext F) (Red : R → List (Val F) → Prop) (r : Rule N F R) (rs : List (Rule N F R)) :
    SameDerivations X Red r (removeTrue r) ∧
    (∀ r ∈ rs, r ∉ removeFalseRules rs → ∀ hd us, ¬ Derives X Red r hd us) ∧
    (∀ r ∈ removeFalseRules rs, r ∈ rs) :=
  ⟨removeTrue_same X Red r, fun r hr hn hd us => removed_no_derivation X Red rs r hr hn hd us,
    fun _ h => (List.mem_filter.mp h).1⟩

/-- Turning rules with an empty body into facts preserves what is derived: a head instance is derived (using nothing) by one of the
rules exactly if it is derived by a remaining rule or is one of the new facts. -/
theorem c60_empty_rule [Nonempty (Val F)] (X : Ext F) (Red : R → List (Val F) → Prop) (rs rs' : List (Rule N F R))
    (fs : List (String × List (Val F))) (h : emptyRuleToFact rs = some (rs', fs)) (hd) (us) :
    (∃ r ∈ rs, Derives X Red r hd us) ↔
      ((∃ r ∈ rs', Derives X Red r hd us) ∨ ∃ f ∈ fs, hd = (false, [f]) ∧ us = []) :=
  emptyRuleToFact_spec rs rs' fs h X Red hd us

example : emptyRuleToFact ([⟨.atom ⟨"q", [K 1]⟩, []⟩, ⟨.atom ⟨"q", [V "x"]⟩, [at1 "p" [V "x"]]⟩] : List (Rule String Empty Unit)) =
    some ([⟨.atom ⟨"q", [V "x"]⟩, [at1 "p" [V "x"]]⟩], [("q", [i 1])]) := by
  decide +kernel

end Scallop.Back
