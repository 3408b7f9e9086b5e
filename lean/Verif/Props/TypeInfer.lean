import Verif.Proof.TypeProgram
import Mathlib.Tactic.Positivity

/-!
# C86 - C88: type inference

The specification is `Verif/Spec/TypeInfer.lean`.
-/

namespace Scallop.Ty

variable {F : Type}

/-! ## Test programs -/

/-- Values of each type that has one. -/
private def someVal : VTy → Option (Val Int)
  | .int k => some (.int k 0)
  | .float k => some (.float k 0)
  | .char => some (.char 'a')
  | .bool => some (.bool true)
  | .string => some (.string "")
  | .symbol => some (.symbol "")
  | .entity => some (.entity 0)
  | _ => none

private def tTypes (n : String) : Option VTy :=
  if n = "i32" then some (.int .i32) else if n = "i64" then some (.int .i64) else if n = "u32" then some (.int .u32)
  else if n = "f32" then some (.float .f32) else if n = "string" then some .string else none

/-- A runtime whose casts have the cases of the code; floating point numbers are replaced by integers. -/
private def tX : Ext Int where
  fadd := (· + ·)
  fsub := (· - ·)
  fmul := (· * ·)
  fdiv := (· / ·)
  fneg := (- ·)
  isNan := fun _ => false
  feq := fun a b => decide (a = b)
  flt := fun a b => decide (a < b)
  fle := fun a b => decide (a ≤ b)
  cast := fun _ n v => match tTypes n with
    | none => .panic
    | some t => if castCase v.ty t then (match someVal t with | some w => .ok w | none => .panic) else .panic
  call := fun _ vs => match vs with
    | [v] => .ok v
    | _ => .panic
  encode := fun _ _ => 0

private def tInt : FloatTy → Int → Int := fun _ n => n
private def tF : FloatTy → Int → Int := fun _ x => x

/-- A function `id<T: Number>(T) -> T` and a foreign predicate `lim(i32)`. -/
private def tEnv : Env where
  types := tTypes
  constTy := fun _ => none
  preds := fun p => if p = "lim" then some [.int .i32] else none
  funs := fun f => if f = "id" then some ⟨[.numeric], [.generic 0], [], none, .generic 0⟩ else none

private def v (x : String) : TExpr Int := .var x
private def n (k : Int) : TExpr Int := .const (.int k)

/-- Whether inference accepts a program with types that pass a test. -/
private def accepts (env : Env) (items : List (Item Int)) (chk : ET × RT → Bool) : Bool :=
  match typeProgram env items 60 with
  | some (.ok st) => chk st
  | _ => false

private theorem accepts_iff {env : Env} {items : List (Item Int)} {chk : ET × RT → Bool} (h : accepts env items chk = true) :
    ∃ s rt, typeProgram env items 60 = some (.ok (s, rt)) ∧ chk (s, rt) = true := by
  unfold accepts at h
  split at h
  · next st hst => exact ⟨st.1, st.2, hst, h⟩
  · simp at h

private theorem tX_cast : CastsAsCoded tX tEnv := by
  intro nm t ht
  have ht : tTypes nm = some t := ht
  refine ⟨fun x w h => ?_, fun x hx => ⟨x, rfl, ?_⟩⟩
  · simp only [tX, ht] at h
    split at h
    · split at h
      · next u hu =>
        simp only [Outcome.ok.injEq] at h
        subst h
        cases t <;> simp only [someVal, Option.some.injEq, reduceCtorEq] at hu <;> subst hu <;> rfl
      · simp at h
    · simp at h
  · simp only [tX, ht, hx, if_true]
    unfold tTypes at ht
    split at ht
    · cases ht; simp [someVal]
    · split at ht
      · cases ht; simp [someVal]
      · split at ht
        · cases ht; simp [someVal]
        · split at ht
          · cases ht; simp [someVal]
          · split at ht
            · cases ht; simp [someVal]
            · simp at ht

private theorem tX_call : CallsTyped tX tEnv := by
  intro f ft vs w hf _ hw
  simp only [tEnv] at hf
  split at hf
  · simp only [Option.some.injEq] at hf
    subst hf
    refine ⟨fun t h => by simp at h, fun g hg => ?_⟩
    simp only [RetTy.generic.injEq] at hg
    subst hg
    simp only [tX] at hw
    split at hw
    · next x =>
      simp only [Outcome.ok.injEq] at hw
      subst hw
      exact ⟨0, _, by simp [FunTy.argTy], rfl, rfl⟩
    · simp at hw
  · simp at hf

private theorem tX_funs : FunsOk tEnv := by
  intro f ft hf
  simp only [tEnv] at hf
  split at hf
  · simp only [Option.some.injEq] at hf
    subst hf
    refine ⟨fun k g h => ?_, fun g h => ?_⟩
    · cases k with
      | zero => simp [FunTy.argTy] at h; subst h; simp
      | succ k => simp [FunTy.argTy] at h
    · simp only [RetTy.generic.injEq] at h
      subst h
      simp
  · simp at hf

/-- ```
type edge(i32, i32)
rel edge = {(0, 1), (1, 2)}
rel dist(x, y, 1.5) = edge(x, y)
rel dist(x, z, n + $id(m)) = dist(x, y, n), edge(y, z), dist(y, z, m), n + m < 10.0, lim(z)
rel name(x as string, if x > 1 then "far" else "near") = dist(x, _, _), not edge(x, x)
``` -/
private def good : List (Item Int) :=
  [.decl "edge" ["i32", "i32"],
    .fact "edge" [(.int 0, none), (.int 1, none)], .fact "edge" [(.int 1, none), (.int 2, none)],
    .rule ⟨[⟨"dist", [v "x", v "y", .const (.float 1)]⟩], [.pos ⟨"edge", [v "x", v "y"]⟩]⟩,
    .rule ⟨[⟨"dist", [v "x", v "z", .bin .add (v "n") (.call "id" [v "m"])]⟩],
      [.pos ⟨"dist", [v "x", v "y", v "n"]⟩, .pos ⟨"edge", [v "y", v "z"]⟩, .pos ⟨"dist", [v "y", v "z", v "m"]⟩,
        .constraint (.bin .lt (.bin .add (v "n") (v "m")) (.const (.float 10))), .pos ⟨"lim", [v "z"]⟩]⟩,
    .rule ⟨[⟨"name", [.un (.cast "string") (v "x"), .ite (.bin .gt (v "x") (n 1)) (.const (.string "far")) (.const (.string "near"))]⟩],
      [.pos ⟨"dist", [v "x", .wild, .wild]⟩, .neg ⟨"edge", [v "x", v "x"]⟩]⟩]

private def isSettled (items : List (Item Int)) (st : ET × RT) : Bool := settled tEnv (ctxsOf (rulesOf items)) 2 st
private def isSupported (items : List (Item Int)) (st : ET × RT) : Bool := supported tEnv (ctxsOf (rulesOf items)) st.1

private theorem good_ok : accepts tEnv good (fun st => isSettled good st && isSupported good st &&
    decide (st.2 "dist" = some [.base (.int .i32), .base (.int .i32), .base (.float .f32)]) &&
    decide (st.2 "name" = some [.base .string, .string])) = true := by decide +kernel

/-! ## C86: merging types; inference ends -/

/-- Merging two sets of types gives the types that both have. -/
theorem c86_merge_exact {a b c : TSet} (h : a.unify b = some c) (t : VTy) :
    c.contains t = true ↔ a.contains t = true ∧ b.contains t = true := by
  obtain ⟨h1, h2, h3⟩ := TSet.unify_some h
  refine ⟨fun h => ⟨TSet.contains_mono h1 h, TSet.contains_mono h2 h⟩, fun ⟨g1, g2⟩ => ?_⟩
  rcases h3 with rfl | rfl
  · exact g1
  · exact g2

/-- Two sets of types that cannot be merged have no type in common, unless one is the set of the unsigned integer types. -/
theorem c86_refused_disjoint_partial {a b : TSet} (h : a.unify b = none) (ha : a ≠ .unsigned) (hb : b ≠ .unsigned) (t : VTy) :
    ¬ (a.contains t = true ∧ b.contains t = true) := by
  rintro ⟨g1, g2⟩
  obtain ⟨n1, n2⟩ := TSet.unify_none h
  rcases TSet.le_total_of_contains g1 g2 (fun h => ha h.1) (fun h => hb h.1) with h | h
  · exact n1 h
  · exact n2 h

example : TSet.unify .numeric (.base (.int .u8)) = some (.base (.int .u8)) ∧ TSet.unify .float .signed = none := by decide

/-- Without the exception the claim is false: a foreign function that takes an unsigned integer refuses a `u32`. -/
theorem c86_refused_disjoint_false :
    ¬ ∀ a b : TSet, a.unify b = none → ∀ t, ¬ (a.contains t = true ∧ b.contains t = true) := by
  intro h
  exact h (.base (.int .u32)) .unsigned (by decide) (.int .u32) (by decide)

/-- Inference of every program ends within a number of passes that is linear in the number of its expressions, when no foreign function
mentions the set of the unsigned integer types. -/
theorem c86_inference_ends_partial (env : Env) (items : List (Item F))
    (hfun : ∀ f ft, env.funs f = some ft → TSet.unsigned ∉ ft.generics ∧ ∀ i, ft.argTy i ≠ some (.set .unsigned))
    {fuel : Nat} (hf : 7 * (allLocs (ctxsOf (rulesOf items))).length + 1 < fuel) : ∃ r, typeProgram env items fuel = some r := by
  unfold typeProgram
  cases h : addItems env items with
  | none => exact ⟨_, rfl⟩
  | some rt =>
    have := loop_ends (env := env) (cs := ctxsOf (rulesOf items))
      (fun f ft hft => ⟨(hfun f ft hft).1, fun i a ha => by
        cases a with
        | generic k => trivial
        | set t => rintro rfl; exact (hfun f ft hft).2 i ha⟩)
      (ctxs_noU _) rt (addItems_noU h) hf
    simp only [inferTypes]
    cases hl : loop env (ctxsOf (rulesOf items)) fuel (fun _ => none, rt) with
    | running => exact absurd hl this
    | done s rt => exact ⟨_, rfl⟩
    | error => exact ⟨_, rfl⟩
    | panic => exact ⟨_, rfl⟩

example : ∃ r, typeProgram tEnv good 400 = some r :=
  c86_inference_ends_partial _ _ (by
    intro f ft hf
    simp only [tEnv] at hf
    split at hf
    · simp only [Option.some.injEq] at hf; subst hf
      refine ⟨by simp, fun i => ?_⟩
      cases i <;> simp [FunTy.argTy]
    · simp at hf) (by decide +kernel)

/-- A function `f(UnsignedInteger) -> bool`. -/
private def uEnv : Env where
  types := tTypes
  constTy := fun _ => none
  preds := fun _ => none
  funs := fun f => if f = "f" then some ⟨[], [.set .unsigned], [], none, .base .bool⟩ else none

/-- `rel q() = $f(1)` -/
private def uItems : List (Item Int) := [.rule ⟨[⟨"q", []⟩], [.constraint (.call "f" [n 1])]⟩]

private def uRt : RT := RT.put (fun _ => none) "q" []

private theorem u_pass (s : ET) (h1 : s [0, 1, 0] = none ∨ s [0, 1, 0] = some (.base .bool))
    (h2 : s [0, 0, 1, 0] = none ∨ s [0, 0, 1, 0] = some .unsigned) :
    pass uEnv (ctxsOf (rulesOf uItems)) (s, uRt) =
      .ok (((s.set [0, 0, 1, 0] .unsigned).set [0, 1, 0] (.base .bool)).set [0, 0, 1, 0] .unsigned, uRt) := by
  have e1 : TSet.unify .unsigned ((s [0, 0, 1, 0]).getD .unsigned) = some .unsigned := by rcases h2 with h | h <;> rw [h] <;> decide
  have e2 : TSet.unify (.base .bool) ((s [0, 1, 0]).getD (.base .bool)) = some (.base .bool) := by rcases h1 with h | h <;> rw [h] <;> decide
  have e3 : TSet.unify .numeric .unsigned = some .unsigned := by decide
  simp [pass, uItems, rulesOf, ctxsOf, TRule.ctx, TRule.lits, TLit.unifs, TAtom.unifs, TExpr.unifs, TExpr.unifsList, n, kids, Const.typeSet,
    Res.foldl, Ctx.round, Unif.step, unifyCall, uEnv, FunTy.validArity, unifyArgs, FunTy.argTy, narrow, unifyTy, Res.bind, Res.ofOption, e1, e2,
    ET.set, e3, Ctx.propVars, Ctx.vars, propRels, relArgs]

private theorem u_loop (fuel : Nat) (s : ET) (h1 : s [0, 1, 0] = none ∨ s [0, 1, 0] = some (.base .bool))
    (h2 : s [0, 0, 1, 0] = none ∨ s [0, 0, 1, 0] = some .unsigned) :
    loop uEnv (ctxsOf (rulesOf uItems)) fuel (s, uRt) = .running := by
  induction fuel generalizing s with
  | zero => rfl
  | succ fuel ih =>
    simp only [loop, u_pass s h1 h2]
    have hn : sameTypes (ctxsOf (rulesOf uItems)) s (((s.set [0, 0, 1, 0] .unsigned).set [0, 1, 0] (.base .bool)).set [0, 0, 1, 0] .unsigned) = false := by
      have hm : [0, 0, 1, 0] ∈ allLocs (ctxsOf (rulesOf uItems)) := by decide +kernel
      rw [Bool.eq_false_iff]
      intro ht
      simp only [sameTypes, List.all_eq_true] at ht
      have := ht _ hm
      rcases h2 with h | h <;> simp [h, ET.set, TSet.codeEq] at this
    rw [if_neg (by rw [hn]; simp)]
    exact ih _ (Or.inr (by simp [ET.set])) (Or.inr (by simp [ET.set]))

/-- Without that condition the claim is false: the test whether anything changed takes the set of the unsigned integer types to differ from
itself, so inference of a program that passes an integer literal to a function of an unsigned integer never ends. -/
theorem c86_inference_ends_false :
    ¬ ∀ (env : Env) (items : List (Item Int)), ∃ fuel r, typeProgram env items fuel = some r := by
  intro h
  obtain ⟨fuel, r, hr⟩ := h uEnv uItems
  have ha : addItems uEnv uItems = some uRt := by
    simp [addItems, uItems, foldOpt, addItem, addRule, TRule.atoms, TRule.lits, addArity, uEnv, uRt]
  simp only [typeProgram, ha, inferTypes, u_loop fuel (fun _ => none) (Or.inl rfl) (Or.inl rfl)] at hr
  simp at hr

/-! ## C87: accepted programs compute values of the inferred types -/

section
variable (X : Ext F) (ofInt : FloatTy → Int → F) (toF : FloatTy → F → F) (env : Env) (items : List (Item F))

/-- Every fact that an accepted program derives has values of the types inferred for its relation, when the result of inference is settled. -/
theorem c87_derived_typed_partial {fuel k : Nat} {s : ET} {rt : RT} (h : typeProgram env items fuel = some (.ok (s, rt)))
    (hset : settled env (ctxsOf (rulesOf items)) k (s, rt) = true)
    (hcast : CastsAsCoded X env) (hcall : CallsTyped X env) (hfun : FunsOk env) {O : String → List (Val F) → Prop}
    (hO : ∀ p tys vs, env.preds p = some tys → O p vs → vs.map Val.ty = tys)
    {n : Nat} {p : String} {vs : List (Val F)} (hd : DerivedIn X ofInt toF env s items rt O n p vs) : Typed env rt p vs := by
  obtain ⟨rt0, h0, _⟩ := typeProgram_ok h
  obtain ⟨s', rt', hfix, ha⟩ := settled_fixed h hset
  have key : ∀ n p vs, DerivedIn X ofInt toF env s' items rt' O n p vs → Typed env rt' p vs := by
    intro n
    induction n with
    | zero => intro p vs h; exact h.elim
    | succ n ih => intro p vs h; exact step_typed hfix hcast hcall hfun h0 hO ih h
  exact typed_alike ha.symm (key n p vs (derived_alike ha hd))

/-- No evaluation of an expression of an accepted program meets a type error, when the result of inference is settled and the program
uses `-`, `%`, casts and string literals only where the runtime supports them. -/
theorem c87_no_type_error_partial {fuel k : Nat} {s : ET} {rt : RT} (h : typeProgram env items fuel = some (.ok (s, rt)))
    (hset : settled env (ctxsOf (rulesOf items)) k (s, rt) = true) (hsup : supported env (ctxsOf (rulesOf items)) s = true)
    (hcast : CastsAsCoded X env) (hcall : CallsTyped X env) (hfun : FunsOk env) {O : String → List (Val F) → Prop}
    (hO : ∀ p tys vs, env.preds p = some tys → O p vs → vs.map Val.ty = tys)
    {n i : Nat} {r : TRule F} (hr : (rulesOf items)[i]? = some r) {l : Loc} {e : TExpr F} (he : ExprAt r i l e)
    {ρ : String → Option (Val F)} (hρ : ∀ x v, ρ x = some v → Supp X ofInt toF s (DerivedIn X ofInt toF env s items rt O n) r i x v) :
    ¬ TypeErr X ofInt toF env s ρ l e := by
  obtain ⟨s', rt', hfix, ha⟩ := settled_fixed h hset
  intro ht
  refine no_typeErr (hfix.sat _ (ctx_mem hr)) hcast hcall hfun (ρ := ρ) (fun x v l hx hl => ?_)
    (fun u hu => supported_alike ha (supported_unif hsup (ctx_mem hr) u hu)) (exprAt_unifs he) (typeErr_alike ha ht)
  exact supp_typed hfix hcast hcall hfun (D := DerivedIn X ofInt toF env s items rt O n)
    (fun p vs hd => typed_alike ha (c87_derived_typed_partial X ofInt toF env items h hset hcast hcall hfun hO hd)) hr
    (supp_alike ha (fun _ _ h => h) (hρ x v hx)) l hl

/-- The values of constraints are truth values. -/
theorem c87_constraint_bool_partial {fuel k : Nat} {s : ET} {rt : RT} (h : typeProgram env items fuel = some (.ok (s, rt)))
    (hset : settled env (ctxsOf (rulesOf items)) k (s, rt) = true)
    (hcast : CastsAsCoded X env) (hcall : CallsTyped X env) (hfun : FunsOk env) {O : String → List (Val F) → Prop}
    (hO : ∀ p tys vs, env.preds p = some tys → O p vs → vs.map Val.ty = tys)
    {n i j : Nat} {r : TRule F} (hr : (rulesOf items)[i]? = some r) {e : TExpr F} (he : r.lits[j]? = some (.constraint e))
    {ρ : String → Option (Val F)} (hρ : ∀ x v, ρ x = some v → Supp X ofInt toF s (DerivedIn X ofInt toF env s items rt O n) r i x v)
    {v : Val F} (hv : Eval X ofInt toF s ρ [0, j, i] e v) : ∃ b, v = .bool b := by
  obtain ⟨s', rt', hfix, ha⟩ := settled_fixed h hset
  obtain ⟨t, g1, g2⟩ := eval_typed (hfix.sat _ (ctx_mem hr)) hcast hcall hfun (ρ := ρ) (fun x v l hx hl =>
    supp_typed hfix hcast hcall hfun (D := DerivedIn X ofInt toF env s items rt O n)
      (fun p vs hd => typed_alike ha (c87_derived_typed_partial X ofInt toF env items h hset hcast hcall hfun hO hd)) hr
      (supp_alike ha (fun _ _ h => h) (hρ x v hx)) l hl) (eval_alike ha hv) (exprAt_unifs ⟨j, Or.inr ⟨he, rfl⟩⟩)
  rw [checkConstraint_ok (hfix.constraint _ (ctx_mem hr)) (constraint_mem he)] at g1
  simp only [Option.some.injEq] at g1
  subst g1
  exact ty_bool g2

/-- Every cast in an accepted program is applied only to values of types from which the language allows it. -/
theorem c87_cast_allowed_partial {fuel k : Nat} {s : ET} {rt : RT} (h : typeProgram env items fuel = some (.ok (s, rt)))
    (hset : settled env (ctxsOf (rulesOf items)) k (s, rt) = true)
    (hcast : CastsAsCoded X env) (hcall : CallsTyped X env) (hfun : FunsOk env) {O : String → List (Val F) → Prop}
    (hO : ∀ p tys vs, env.preds p = some tys → O p vs → vs.map Val.ty = tys)
    {n i : Nat} {r : TRule F} (hr : (rulesOf items)[i]? = some r) {l m : Loc} {e a : TExpr F} {name : String} (he : ExprAt r i l e)
    (hs : SubAt l e m (.un (.cast name) a))
    {ρ : String → Option (Val F)} (hρ : ∀ x v, ρ x = some v → Supp X ofInt toF s (DerivedIn X ofInt toF env s items rt O n) r i x v)
    {v : Val F} (hv : Eval X ofInt toF s ρ (0 :: m) a v) : ∃ b, env.types name = some b ∧ CastAllowed v.ty b := by
  obtain ⟨s', rt', hfix, ha⟩ := settled_fixed h hset
  obtain ⟨t, g1, g2⟩ := eval_typed (hfix.sat _ (ctx_mem hr)) hcast hcall hfun (ρ := ρ) (fun x v l hx hl =>
    supp_typed hfix hcast hcall hfun (D := DerivedIn X ofInt toF env s items rt O n)
      (fun p vs hd => typed_alike ha (c87_derived_typed_partial X ofInt toF env items h hset hcast hcall hfun hO hd)) hr
      (supp_alike ha (fun _ _ h => h) (hρ x v hx)) l hl) (eval_alike ha hv)
      (fun u hu => exprAt_unifs he u (subAt_unifs (.operand hs) hu))
  obtain ⟨b, t', h1, h2, h3⟩ := checkCast_ok (hfix.cast _ (ctx_mem hr))
    (exprAt_unifs he _ (subAt_unifs hs (by simp [TExpr.unifs] : Unif.un (.cast name) (0 :: m) m ∈ _)))
  rw [g1] at h2
  simp only [Option.some.injEq] at h2
  subst h2
  exact ⟨b, h1, by rw [g2]; exact canCast_default h3⟩

end

/-- The hypotheses are met by a program with a recursive rule, a declaration, facts, literals, a comparison, a call, a cast, a
conditional, a negated atom and a foreign predicate. -/
example : ∃ s rt, typeProgram tEnv good 60 = some (.ok (s, rt)) ∧ settled tEnv (ctxsOf (rulesOf good)) 2 (s, rt) = true ∧
    supported tEnv (ctxsOf (rulesOf good)) s = true ∧ rt "dist" = some [.base (.int .i32), .base (.int .i32), .base (.float .f32)] ∧
    CastsAsCoded tX tEnv ∧ CallsTyped tX tEnv ∧ FunsOk tEnv := by
  obtain ⟨s, rt, h, hc⟩ := accepts_iff good_ok
  simp only [Bool.and_eq_true, decide_eq_true_eq, isSettled, isSupported] at hc
  exact ⟨s, rt, h, hc.1.1.1, hc.1.1.2, hc.1.2, tX_cast, tX_call, tX_funs⟩

/-- ```
rel r = {1, 2}
rel t = {0.5}
rel p(x) = r(x)
rel u(x + 1) = p(x)
rel t(x + x) = r(x)
``` -/
private def order : List (Item Int) :=
  [.fact "r" [(.int 1, none)], .fact "r" [(.int 2, none)], .fact "t" [(.float 0, none)],
    .rule ⟨[⟨"p", [v "x"]⟩], [.pos ⟨"r", [v "x"]⟩]⟩,
    .rule ⟨[⟨"u", [.bin .add (v "x") (n 1)]⟩], [.pos ⟨"p", [v "x"]⟩]⟩,
    .rule ⟨[⟨"t", [.bin .add (v "x") (v "x")]⟩], [.pos ⟨"r", [v "x"]⟩]⟩]

private theorem order_ok : accepts tEnv order (fun st => isSupported order st &&
    decide (st.2 "r" = some [.base (.float .f32)]) && decide (st.2 "p" = some [.base (.int .i32)]) &&
    decide (st.1 [1, 0, 0, 1] = some (.base (.int .i32)))) = true := by decide +kernel

/-- Without the condition that the result is settled both claims are false. The choice among the rules of `+` is made rule by rule in
program order: in `order`, `p` gets the type `i32` and only afterwards `r`, from which `p` is copied, the type `f32`. So `p` contains
floating point numbers, and the addition in the rule of `u` has operands of two types, for which the runtime has no case. -/
theorem c87_typed_false :
    ∃ (env : Env) (items : List (Item Int)) (s : ET) (rt : RT), typeProgram env items 60 = some (.ok (s, rt)) ∧
      supported env (ctxsOf (rulesOf items)) s = true ∧ CastsAsCoded tX env ∧ CallsTyped tX env ∧ FunsOk env ∧
      (∃ p vs, DerivedIn tX tInt tF env s items rt (fun _ _ => False) 2 p vs ∧ ¬ Typed env rt p vs) ∧
      ∃ i r l e ρ, (rulesOf items)[i]? = some r ∧ ExprAt r i l e ∧
        (∀ x v, ρ x = some v → Supp tX tInt tF s (DerivedIn tX tInt tF env s items rt (fun _ _ => False) 2) r i x v) ∧
        TypeErr tX tInt tF env s ρ l e := by
  obtain ⟨s, rt, h, hc⟩ := accepts_iff order_ok
  simp only [Bool.and_eq_true, decide_eq_true_eq, isSupported] at hc
  obtain ⟨⟨⟨c1, c2⟩, c3⟩, c4⟩ := hc
  have d1 : DerivedIn tX tInt tF tEnv s order rt (fun _ _ => False) 1 "r" [.float .f32 1] := by
    refine Step.fact (args := [(.int 1, none)]) (by simp [order]) c2 rfl fun k c v hk hv => ?_
    cases k with
    | zero =>
      simp only [List.getElem?_cons_zero, Option.some.injEq] at hk hv
      subst hk; subst hv
      exact ⟨_, rfl, rfl⟩
    | succ k => simp at hk
  have d2 : DerivedIn tX tInt tF tEnv s order rt (fun _ _ => False) 2 "p" [.float .f32 1] := by
    refine Step.rule (i := 0) (j := 0) (ρ := fun x => if x = "x" then some (.float .f32 1) else none) (a := ⟨"p", [v "x"]⟩)
      (r := ⟨[⟨"p", [v "x"]⟩], [.pos ⟨"r", [v "x"]⟩]⟩) rfl rfl (fun x w hx => ?_) (fun k b hk => ?_) (fun k e hk => ?_) rfl (fun m e w hm hw => ?_)
    · split at hx
      · next hxx =>
        simp only [Option.some.injEq] at hx
        subst hx; subst hxx
        exact .atom (k := 0) (m := 0) (b := ⟨"r", [v "x"]⟩) rfl rfl d1 rfl
      · simp at hx
    · cases k with
      | zero =>
        simp only [List.getElem?_cons_zero, Option.some.injEq, TLit.pos.injEq] at hk
        subst hk
        refine ⟨_, d1, rfl, fun m e w hm hw => ?_⟩
        cases m with
        | zero =>
          simp only [List.getElem?_cons_zero, Option.some.injEq] at hm hw
          subst hm; subst hw
          exact Or.inr (.var (by simp))
        | succ m => simp at hm
      | succ k => simp at hk
    · cases k with
      | zero => simp at hk
      | succ k => simp at hk
    · cases m with
      | zero =>
        simp only [List.getElem?_cons_zero, Option.some.injEq] at hm hw
        subst hm; subst hw
        exact .var (by simp)
      | succ m => simp at hm
  refine ⟨tEnv, order, s, rt, h, c1, tX_cast, tX_call, tX_funs, ⟨"p", _, d2, fun ht => ?_⟩, ?_⟩
  · have hp : tEnv.preds "p" = none := by simp [tEnv]
    simp only [Typed, hp] at ht
    obtain ⟨tys, t, g1, g2, g3⟩ := ht 0 _ rfl
    rw [c3] at g1
    simp only [Option.some.injEq] at g1
    subst g1
    simp only [List.getElem?_cons_zero, Option.some.injEq] at g2
    subst g2
    simp [Val.ty, TSet.default] at g3
  · refine ⟨1, ⟨[⟨"u", [.bin .add (v "x") (n 1)]⟩], [.pos ⟨"p", [v "x"]⟩]⟩, [0, 0, 1], .bin .add (v "x") (n 1),
      fun x => if x = "x" then some (.float .f32 1) else none, rfl, ⟨0, Or.inl ⟨_, 0, Or.inl rfl, rfl, rfl⟩⟩, fun x w hx => ?_, ?_⟩
    · simp only at hx
      split at hx
      · next hxx =>
        simp only [Option.some.injEq] at hx
        subst hx; subst hxx
        exact .atom (k := 0) (m := 0) (b := ⟨"p", [v "x"]⟩) rfl rfl d2 rfl
      · simp at hx
    · refine .bin (va := .float .f32 1) (vb := .int .i32 1) (.var (by simp)) (.const c4 rfl) fun a b ha hb => ?_
      obtain ⟨x, rfl⟩ := ty_float ha
      obtain ⟨y, rfl⟩ := ty_int hb
      rfl

private def badNeg : List (Item Int) :=
  [.decl "r" ["u32"], .fact "r" [(.int 1, none)], .rule ⟨[⟨"q", [.un .neg (v "x")]⟩], [.pos ⟨"r", [v "x"]⟩]⟩]
private def badMod : List (Item Int) :=
  [.decl "r" ["f32"], .fact "r" [(.int 1, none)], .rule ⟨[⟨"q", [.bin .mod (v "x") (v "x")]⟩], [.pos ⟨"r", [v "x"]⟩]⟩]
private def badCast : List (Item Int) :=
  [.decl "r" ["f32"], .fact "r" [(.int 1, none)], .rule ⟨[⟨"q", [.un (.cast "i32") (v "x")]⟩], [.pos ⟨"r", [v "x"]⟩]⟩]

private theorem bad_ok : accepts tEnv badNeg (fun st => isSettled badNeg st && decide (st.2 "r" = some [.base (.int .u32)])) = true ∧
    accepts tEnv badMod (fun st => isSettled badMod st && decide (st.2 "r" = some [.base (.float .f32)])) = true ∧
    accepts tEnv badCast (fun st => isSettled badCast st && decide (st.2 "r" = some [.base (.float .f32)])) = true := by decide +kernel

/-- Without the condition on the operators the second claim is false for settled results too: inference accepts `-` on unsigned integers,
`%` on floating point numbers and the cast of a floating point number to an integer, and all of them panic. -/
theorem c87_supported_false :
    ∀ items ∈ [badNeg, badMod, badCast], ∃ (s : ET) (rt : RT), typeProgram tEnv items 60 = some (.ok (s, rt)) ∧
      settled tEnv (ctxsOf (rulesOf items)) 2 (s, rt) = true ∧
      ∃ i r l e ρ, (rulesOf items)[i]? = some r ∧ ExprAt r i l e ∧
        (∀ x v, ρ x = some v → Supp tX tInt tF s (DerivedIn tX tInt tF tEnv s items rt (fun _ _ => False) 1) r i x v) ∧
        TypeErr tX tInt tF tEnv s ρ l e := by
  have go : ∀ (w : Val Int) (t : VTy) (nm : String) (e : TExpr Int) (items : List (Item Int)),
      items = [.decl "r" [nm], .fact "r" [(.int 1, none)], .rule ⟨[⟨"q", [e]⟩], [.pos ⟨"r", [v "x"]⟩]⟩] →
      accepts tEnv items (fun st => isSettled items st && decide (st.2 "r" = some [.base t])) = true →
      (Const.int 1).toVal tInt tF t = some w →
      (∀ (s : ET) ρ, ρ "x" = some w → TypeErr tX tInt tF tEnv s ρ [0, 0, 0] e) →
      ∃ (s : ET) (rt : RT), typeProgram tEnv items 60 = some (.ok (s, rt)) ∧
        settled tEnv (ctxsOf (rulesOf items)) 2 (s, rt) = true ∧
        ∃ i r l e ρ, (rulesOf items)[i]? = some r ∧ ExprAt r i l e ∧
          (∀ x v, ρ x = some v → Supp tX tInt tF s (DerivedIn tX tInt tF tEnv s items rt (fun _ _ => False) 1) r i x v) ∧
          TypeErr tX tInt tF tEnv s ρ l e := by
    intro w t nm e items hi hacc hw he
    obtain ⟨s, rt, h, hc⟩ := accepts_iff hacc
    simp only [Bool.and_eq_true, decide_eq_true_eq, isSettled] at hc
    subst hi
    refine ⟨s, rt, h, hc.1, 0, _, [0, 0, 0], e, fun x => if x = "x" then some w else none, rfl, ⟨0, Or.inl ⟨_, 0, Or.inl rfl, rfl, rfl⟩⟩,
      fun x u hx => ?_, he s _ (by simp)⟩
    simp only at hx
    split at hx
    · next hxx =>
      simp only [Option.some.injEq] at hx
      subst hx; subst hxx
      refine .atom (k := 0) (m := 0) (b := ⟨"r", [v "x"]⟩) (vs := [w]) rfl rfl ?_ rfl
      refine Step.fact (args := [(.int 1, none)]) (by simp) hc.2 rfl fun k c u hk hu => ?_
      cases k with
      | zero =>
        simp only [List.getElem?_cons_zero, Option.some.injEq] at hk hu
        subst hk; subst hu
        exact ⟨_, rfl, hw⟩
      | succ k => simp at hk
    · simp at hx
  intro items hi
  simp only [List.mem_cons, List.not_mem_nil, or_false] at hi
  rcases hi with rfl | rfl | rfl
  · refine go (.int .u32 1) (.int .u32) "u32" _ _ rfl bad_ok.1 rfl fun s ρ hx => .un (.var hx) fun a ha => ?_
    obtain ⟨y, rfl⟩ := ty_int ha
    rfl
  · refine go (.float .f32 1) (.float .f32) "f32" _ _ rfl bad_ok.2.1 rfl fun s ρ hx => .bin (.var hx) (.var hx) fun a b ha hb => ?_
    obtain ⟨x, rfl⟩ := ty_float ha
    obtain ⟨y, rfl⟩ := ty_float hb
    rfl
  · refine go (.float .f32 1) (.float .f32) "f32" _ _ rfl bad_ok.2.2 rfl fun s ρ hx => .un (.var hx) fun a ha => ?_
    obtain ⟨y, rfl⟩ := ty_float ha
    rfl

/-! ## C88: declared types are kept, literals of facts have them -/

section
variable {env : Env} {items : List (Item F)} {fuel : Nat} {s : ET} {rt : RT}

private theorem infer_cols (h : typeProgram env items fuel = some (.ok (s, rt))) (hna : NoConstArgs env items) :
    ∃ rt0, addItems env items = some rt0 ∧ ArgsBelow (ctxsOf (rulesOf items)) rt0 s ∧ ColsBelow rt0 rt := by
  obtain ⟨rt0, h0, h1⟩ := typeProgram_ok h
  refine ⟨rt0, h0, infer_below (ctxs_apart _) (fun c hc e p i hu => ?_) (addItems_foreign h0) h1⟩
  simp only [ctxsOf, List.mem_map] at hc
  obtain ⟨⟨r, k⟩, hr, rfl⟩ := hc
  have hr := List.mem_zipIdx_iff_getElem?.1 hr
  obtain ⟨j, a, ha, _, hm, rfl⟩ := arg_at hu
  exact hna k r j a i hr ha hm

/-- The types declared for a relation are those of its columns, when the declaration is the first item about the relation and no rule
has the name of a declared constant as an argument of an atom. Every argument of an atom of the relation has the declared type. -/
theorem c88_declared_kept_partial {pre post : List (Item F)} {p : String} {tys : List String} (hi : items = pre ++ .decl p tys :: post)
    (hpre : ∀ it ∈ pre, ¬ it.mentions p) (hpost : ∀ it ∈ post, ¬ it.declares p) (hna : NoConstArgs env items)
    (h : typeProgram env items fuel = some (.ok (s, rt))) :
    ∃ ts : List VTy, ts.map some = tys.map env.types ∧ rt p = some (ts.map .base) ∧
      ∀ (i : Nat) (r : TRule F) (j : Nat) (a : TAtom F) (m : Nat) (t : TSet), (rulesOf items)[i]? = some r →
        (r.lits[j]? = some (.pos a) ∨ r.lits[j]? = some (.neg a)) → a.pred = p → m < a.args.length → s [m, j, i] = some t →
        ∃ b, ts[m]? = some b ∧ t = .base b := by
  obtain ⟨rt0, h0, hA, hC⟩ := infer_cols h hna
  subst hi
  simp only [addItems, foldOpt_append, Option.bind_eq_some_iff, foldOpt] at h0
  obtain ⟨rt1, g1, rt2, g2, g3⟩ := h0
  have hp1 : rt1 p = none := by rw [addItems_other hpre g1]
  simp only [addItem] at g2
  split at g2
  · simp at g2
  · simp only [addDecl, Option.bind_eq_some_iff, hp1, Option.some.injEq] at g2
    obtain ⟨tys0, k1, rfl⟩ := g2
    obtain ⟨hlen, hget⟩ := collect_some k1
    have hts : ∃ ts : List VTy, tys0 = ts.map .base ∧ ts.map some = tys.map env.types := by
      clear g3 hA hC hget hlen hna h
      induction tys generalizing tys0 with
      | nil => simp only [collect, Option.some.injEq] at k1; subst k1; exact ⟨[], rfl, rfl⟩
      | cons x xs ih =>
        simp only [collect, Option.bind_eq_some_iff, Option.some.injEq, Option.map_eq_some_iff] at k1
        obtain ⟨_, ⟨b, hb, rfl⟩, rest, hrest, rfl⟩ := k1
        obtain ⟨ts, e1, e2⟩ := ih (tys0 := rest) hrest
        exact ⟨b :: ts, by simp [e1], by simp [e2, hb]⟩
    obtain ⟨ts, e1, e2⟩ := hts
    have hput : (rt1.put p tys0) p = some tys0 := put_self
    obtain ⟨tys1, l1, l2⟩ := addItems_len hpost g3 hput
    obtain ⟨tys1', l3, l4⟩ := foldOpt_desc (fun _ _ _ _ h => addItem_desc h) g3 p tys0 hput
    rw [l1] at l3
    simp only [Option.some.injEq] at l3
    subst l3
    have eq1 : tys1 = tys0 := below_base e1 l2 l4
    subst eq1
    obtain ⟨tys2, m1, m2, m3⟩ := (hC p).2 _ l1
    have eq2 : tys2 = tys1 := below_base e1 m2 m3
    subst eq2
    refine ⟨ts, e2, by rw [m1, e1], fun i r j a m t hr ha hap hm hs => ?_⟩
    subst hap
    obtain ⟨t0, n1, n2⟩ := hA _ (ctx_mem hr) _ _ _ (at_arg ha hm) _ l1 t hs
    rw [e1, List.getElem?_map] at n1
    cases hb : ts[m]? with
    | none => rw [hb] at n1; simp at n1
    | some b =>
      rw [hb] at n1
      simp only [Option.map_some, Option.some.injEq] at n1
      subst n1
      exact ⟨b, rfl, TSet.le_base n2⟩

/-- The literals of a fact become values of the types of the columns: there is a column for each and none is refused, when no declaration
of the relation has another number of columns and no argument is the name of a declared constant. The column of a negative integer has
a signed integer type. -/
theorem c88_fact_literals_partial (ofInt : FloatTy → Int → F) (toF : FloatTy → F → F) {p : String} {args : List (Const F × Option String)}
    (hf : Item.fact p args ∈ items) (hconst : ∀ c ∈ args, c.2 = none) (hd : ∀ tys, Item.decl p tys ∈ items → tys.length = args.length)
    (hna : NoConstArgs env items) (h : typeProgram env items fuel = some (.ok (s, rt))) :
    ∃ tys, rt p = some tys ∧ tys.length = args.length ∧
      ∀ (k : Nat) c t, args[k]? = some c → tys[k]? = some t → t ≠ .base .str →
        (∃ w, c.1.toVal ofInt toF t.default = some w ∧ w.ty = t.default) ∧
        ∀ m : Int, c.1 = .int m → m < 0 → ∃ k : IntTy, t.default = .int k ∧ k.signed = true := by
  obtain ⟨rt0, h0, hA, hC⟩ := infer_cols h hna
  obtain ⟨tys0, g1, g2⟩ := fact_below h0 hf
  have hl := fact_length h0 hf hd g1
  obtain ⟨tys, k1, k2, k3⟩ := (hC p).2 tys0 g1
  refine ⟨tys, k1, k2.trans hl, fun k c t hk ht hns => ?_⟩
  obtain ⟨t0, n1, n2⟩ := k3 k t ht
  obtain ⟨b, n3, n4⟩ := g2 k c t0 hk n1
  have hc := hconst c (List.mem_of_getElem? hk)
  simp only [resolveConst, hc, Option.some.injEq] at n3
  subst n3
  have := toVal_some (ofInt := ofInt) (toF := toF) (TSet.le_trans n2 n4) hns
  obtain ⟨w, hw⟩ := Option.isSome_iff_exists.1 this
  refine ⟨⟨w, hw, toVal_ty hw⟩, fun m hm hneg => ?_⟩
  have hle := TSet.le_trans n2 n4
  simp only [hm, Const.typeSet, if_pos hneg] at hle
  exact isSigned_iff (default_of_le hle)

end

/-- The hypotheses are met by the program `good`, whose first item declares `edge`. -/
example : ∃ s rt, typeProgram tEnv good 60 = some (.ok (s, rt)) ∧ NoConstArgs tEnv good ∧
    good = [] ++ .decl "edge" ["i32", "i32"] :: good.tail ∧ (∀ it ∈ good.tail, ¬ it.declares "edge") ∧
    Item.fact "edge" [(.int 0, none), (.int 1, none)] ∈ good := by
  obtain ⟨s, rt, h, _⟩ := accepts_iff good_ok
  exact ⟨s, rt, h, fun _ _ _ _ _ _ _ _ => rfl, rfl, by simp [good, Item.declares], by simp [good]⟩

/-- `const X: i32 = 5` used as `rel r(X) = q(x)`, the head atom of the first rule. -/
private def cEnv : Env := { tEnv with constTy := fun l => if l = [0, 0, 0] then some "i32" else none }

/-- ```
type r(i64)
const X: i32 = 5
rel q = {1}
rel r(X) = q(x)
``` -/
private def constItems : List (Item Int) :=
  [.decl "r" ["i64"], .fact "q" [(.int 1, none)], .rule ⟨[⟨"r", [n 5]⟩], [.pos ⟨"q", [v "x"]⟩]⟩]

/-- ```
rel r = {(1, 2)}
type r(i64)
``` -/
private def lateItems : List (Item Int) := [.fact "r" [(.int 1, none), (.int 2, none)], .decl "r" ["i64"]]

private theorem c88_runs : accepts cEnv constItems (fun st => decide (st.2 "r" = some [.base (.int .i32)])) = true ∧
    accepts tEnv lateItems (fun st => decide (st.2 "r" = some [.base (.int .i64)])) = true := by decide +kernel

/-- Without its conditions the first claim is false: a declared constant of another type that is an argument of an atom replaces the
declared type of the column, without an error. -/
theorem c88_declared_kept_false :
    ∃ (env : Env) (items : List (Item Int)) (s : ET) (rt : RT), items.head? = some (.decl "r" ["i64"]) ∧ env.types "i64" = some (.int .i64) ∧
      typeProgram env items 60 = some (.ok (s, rt)) ∧ rt "r" = some [.base (.int .i32)] := by
  obtain ⟨s, rt, h, hc⟩ := accepts_iff c88_runs.1
  simp only [decide_eq_true_eq] at hc
  exact ⟨cEnv, constItems, s, rt, rfl, rfl, h, hc⟩

/-- The second claim is false without its condition on declarations: a declaration of fewer columns that follows the facts is accepted and
drops columns, so that a literal of a fact has no type. -/
theorem c88_fact_literals_false :
    ∃ (items : List (Item Int)) (s : ET) (rt : RT), Item.fact "r" [(.int 1, none), (.int 2, none)] ∈ items ∧
      typeProgram tEnv items 60 = some (.ok (s, rt)) ∧ rt "r" = some [.base (.int .i64)] := by
  obtain ⟨s, rt, h, hc⟩ := accepts_iff c88_runs.2
  simp only [decide_eq_true_eq] at hc
  exact ⟨lateItems, s, rt, by simp [lateItems], h, hc⟩

/-- Integer literals wrap: one that its type does not have becomes another number, without an error. -/
theorem c88_literal_wraps (ofInt : FloatTy → Int → F) (toF : FloatTy → F → F) :
    (Const.int 300 : Const F).toVal ofInt toF (.int .i8) = some (.int .i8 44) := by
  simp only [Const.toVal]
  congr 1

/-- An integer literal keeps its value exactly if its type has it. -/
theorem c88_literal_kept_iff (ofInt : FloatTy → Int → F) (toF : FloatTy → F → F) (k : IntTy) (m : Int) :
    (Const.int m : Const F).toVal ofInt toF (.int k) = some (.int k m) ↔ k.lo ≤ m ∧ m < k.lo + 2 ^ k.bits := by
  have hp : (0 : Int) < 2 ^ k.bits := by positivity
  simp only [Const.toVal, wrap, Option.some.injEq, Val.int.injEq, true_and]
  constructor
  · intro h
    have h1 := Int.emod_nonneg (m - k.lo) (ne_of_gt hp)
    have h2 := Int.emod_lt_of_pos (m - k.lo) hp
    omega
  · rintro ⟨h1, h2⟩
    rw [Int.emod_eq_of_lt (by omega) (by omega)]
    omega

end Scallop.Ty
