import Verif.Proof.Wmc
import Verif.Model.Wmc
import Verif.Spec.World
import Verif.Proof.Clause
import Mathlib.Algebra.Order.BigOperators.Ring.Finset

/-! # Building, evaluating and counting a diagram, end to end -/

namespace Scallop

namespace Sdd

variable {K : Type*} [CommRing K]

theorem over_nil_eval {f : BoolForm} (ho : f.Over []) (w w' : Nat → Bool) : f.eval w = f.eval w' := by
  induction f with
  | fls => rfl
  | tru => rfl
  | pos v => simp [BoolForm.Over] at ho
  | neg v => simp [BoolForm.Over] at ho
  | not f ih => simp only [BoolForm.eval, ih ho]
  | and l r ihl ihr => simp only [BoolForm.eval, ihl ho.1, ihr ho.2]
  | or l r ihl ihr => simp only [BoolForm.eval, ihl ho.1, ihr ho.2]

theorem build_correct {vars : List Nat} (nd : vars.Nodup) {kind : VTree.Kind} (hk : vars ≠ [] ∨ kind = .balanced) {f : BoolForm}
    (ho : f.Over vars) (gc : Bool) : ∃ b d, configure vars kind = some b ∧ b.build f gc = some d ∧
      (∀ (assign : Nat → Option Bool) (w : Nat → Bool), (∀ v ∈ vars, assign v = some (w v)) → d.eval assign = some (f.eval w)) ∧
      (∀ p : Nat → K, d.evalT (Diagram.realAlgebra K) p = some (f.prob p vars.toFinset)) := by
  by_cases hv : vars = []
  · subst hv
    have hk' : kind = .balanced := by simpa using hk
    subst hk'
    obtain ⟨b, h1, h2, h3, h4, h5, h6⟩ := const_build ho (fun _ => false)
    have hb : ∃ d, b.build f gc = some d ∧ d.roots = [if f.eval (fun _ => false) then 1 else 0] ∧
        d.nodes.lookup (if f.eval (fun _ => false) then 1 else 0) = some (.lit (if f.eval (fun _ => false) then .tru else .fls)) := by
      cases gc with
      | false => refine ⟨_, by simp only [Builder.build, h2]; rfl, rfl, ?_⟩; rw [h3]; cases f.eval (fun _ => false) <;> rfl
      | true =>
        have hm : Builder.markVisited b.nodes (b.nodes.length + 1) (if f.eval (fun _ => false) then 1 else 0) =
            some [if f.eval (fun _ => false) then 1 else 0] := by
          rw [h3]; cases f.eval (fun _ => false) <;> rfl
        refine ⟨_, by simp only [Builder.build, h2, if_true, Builder.garbageCollect, List.isEmpty_cons, Bool.false_eq_true, if_false,
          List.mapM_cons, List.mapM_nil, hm]; rfl, rfl, ?_⟩
        rw [h3]; cases f.eval (fun _ => false) <;> rfl
    obtain ⟨d, e1, e2, e3⟩ := hb
    refine ⟨b, d, h1, e1, ?_, ?_⟩
    · intro assign w _
      simp only [Diagram.eval, e2, Diagram.evalNode, e3]
      rw [over_nil_eval ho w (fun _ => false)]
      cases f.eval (fun _ => false) <;> rfl
    · intro p
      simp only [Diagram.evalT, e2, Diagram.evalNodeT, e3]
      have : f.prob p ([] : List Nat).toFinset = if f.eval (fun _ => false) then (1 : K) else 0 := by
        simp [BoolForm.prob]
      rw [this]
      cases f.eval (fun _ => false) <;> rfl
  · obtain ⟨t, ht, hl, u⟩ := VTree.newWithType_spec hv kind
    obtain ⟨b, D, hb, hinv, hp, hn⟩ := init_spec hl u nd
    obtain ⟨d, root, b', D', P, e1, e2, hinv', hh, hP, hD⟩ := build_holds hinv hp hn ho gc
    have hvars : varsOf t = vars := hl
    refine ⟨b, d, by simp only [configure, ht, hb], e1, ?_, ?_⟩
    · intro assign w ha
      simp only [Diagram.eval, e2]
      rw [evalNode_spec hinv' hh (w := w) (by rw [hvars]; exact ha) _ _ (Nat.lt_succ_self _) hP, hD]
    · intro p
      simp only [Diagram.evalT, e2]
      rw [evalNodeT_spec hinv' (by rw [hvars]; exact nd) hh p (fun _ => false) _ _ t (Nat.lt_succ_self _) hP
        (hinv'.within_root (hh.node _ hP).1) (.refl _), hvars]
      rw [← E_boolForm nd f]
      congr 1
      exact E_congr (fun w => by simp only [ind, hD]) _ _

/-! ### Relating two algebras -/

/-- Operations that preserve a relation. -/
structure Related {E F : Type*} (s : Diagram.Algebra E) (t : Diagram.Algebra F) (R : E → F → Prop) : Prop where
  zero : R s.zero t.zero
  one : R s.one t.one
  add : ∀ a b x y, R a x → R b y → R (s.add a b) (t.add x y)
  mult : ∀ a b x y, R a x → R b y → R (s.mult a b) (t.mult x y)
  negate : ∀ a x, R a x → R (s.negate a) (t.negate x)

/-- Results of both evaluations, related. -/
def OptRel {E F : Type*} (R : E → F → Prop) (a : Option E) (b : Option F) : Prop :=
  (a = none ∧ b = none) ∨ ∃ x y, a = some x ∧ b = some y ∧ R x y

theorem foldChildren_rel {E F : Type*} {s : Diagram.Algebra E} {t : Diagram.Algebra F} {R : E → F → Prop} (h : Related s t R)
    {r1 : Nat → Option E} {r2 : Nat → Option F} (hr : ∀ n, OptRel R (r1 n) (r2 n)) : ∀ (cs : List (Nat × Nat)) (a : E) (x : F), R a x →
    OptRel R (Diagram.foldChildren s r1 a cs) (Diagram.foldChildren t r2 x cs)
  | [], a, x, hax => .inr ⟨a, x, rfl, rfl, hax⟩
  | c :: cs, a, x, hax => by
    rcases hr c.1 with ⟨e1, e2⟩ | ⟨p, q, e1, e2, hpq⟩
    · exact .inl ⟨by simp [Diagram.foldChildren, e1], by simp [Diagram.foldChildren, e2]⟩
    · rcases hr c.2 with ⟨f1, f2⟩ | ⟨p', q', f1, f2, hpq'⟩
      · exact .inl ⟨by simp [Diagram.foldChildren, e1, f1], by simp [Diagram.foldChildren, e2, f2]⟩
      · simp only [Diagram.foldChildren, e1, e2, f1, f2]
        exact foldChildren_rel h hr cs _ _ (h.add _ _ _ _ hax (h.mult _ _ _ _ hpq hpq'))

theorem evalNodeT_rel {E F : Type*} {s : Diagram.Algebra E} {t : Diagram.Algebra F} {R : E → F → Prop} (h : Related s t R) (d : Diagram)
    {a : Nat → E} {b : Nat → F} (hab : ∀ v, R (a v) (b v)) : ∀ fuel n, OptRel R (d.evalNodeT s a fuel n) (d.evalNodeT t b fuel n) := by
  intro fuel
  induction fuel with
  | zero => intro n; exact .inl ⟨rfl, rfl⟩
  | succ fuel ih =>
    intro n
    simp only [Diagram.evalNodeT]
    cases d.nodes.lookup n with
    | none => exact .inl ⟨rfl, rfl⟩
    | some node =>
      cases node with
      | or cs => exact foldChildren_rel h ih cs _ _ h.zero
      | lit x =>
        cases x with
        | pos v => exact .inr ⟨_, _, rfl, rfl, hab v⟩
        | neg v => exact .inr ⟨_, _, rfl, rfl, h.negate _ _ (hab v)⟩
        | tru => exact .inr ⟨_, _, rfl, rfl, h.one⟩
        | fls => exact .inr ⟨_, _, rfl, rfl, h.zero⟩

theorem evalT_rel {E F : Type*} {s : Diagram.Algebra E} {t : Diagram.Algebra F} {R : E → F → Prop} (h : Related s t R) (d : Diagram)
    {a : Nat → E} {b : Nat → F} (hab : ∀ v, R (a v) (b v)) : OptRel R (d.evalT s a) (d.evalT t b) := by
  unfold Diagram.evalT
  cases d.roots with
  | nil => exact .inl ⟨rfl, rfl⟩
  | cons r _ => exact evalNodeT_rel h d hab _ _

/-- A polynomial and the dual number of its value and gradient. -/
def PolyDual {L : Type*} [Field L] (p : Nat → L) (P : MvPolynomial ℕ L) (x : DualNumber L) : Prop :=
  x.real = P.eval p ∧ ∀ j, x.deriv j = (MvPolynomial.pderiv j P).eval p

theorem related_dual {L : Type*} [Field L] [LinearOrder L] (p : Nat → L) :
    Related (Diagram.realAlgebra (MvPolynomial ℕ L)) (Diagram.dualAlgebra L) (PolyDual p) where
  zero := ⟨by simp [Diagram.realAlgebra, Diagram.dualAlgebra, DualNumber.constant],
    fun j => by simp [Diagram.realAlgebra, Diagram.dualAlgebra, DualNumber.constant]⟩
  one := ⟨by simp [Diagram.realAlgebra, Diagram.dualAlgebra, DualNumber.constant],
    fun j => by simp [Diagram.realAlgebra, Diagram.dualAlgebra, DualNumber.constant]⟩
  add := by
    intro a b x y ⟨h1, h2⟩ ⟨h3, h4⟩
    exact ⟨by simp [Diagram.realAlgebra, Diagram.dualAlgebra, DualNumber.add, h1, h3],
      fun j => by simp [Diagram.realAlgebra, Diagram.dualAlgebra, DualNumber.add, h2, h4]⟩
  mult := by
    intro a b x y ⟨h1, h2⟩ ⟨h3, h4⟩
    refine ⟨by simp [Diagram.realAlgebra, Diagram.dualAlgebra, DualNumber.mult, h1, h3], fun j => ?_⟩
    simp only [Diagram.realAlgebra, Diagram.dualAlgebra, DualNumber.mult, Derivation.leibniz, smul_eq_mul, map_add, map_mul, h1, h2, h3, h4]
    ring
  negate := by
    intro a x ⟨h1, h2⟩
    exact ⟨by simp [Diagram.realAlgebra, Diagram.dualAlgebra, DualNumber.negate, h1],
      fun j => by simp [Diagram.realAlgebra, Diagram.dualAlgebra, DualNumber.negate, h2, map_sub]⟩

theorem polyDual_var {L : Type*} [Field L] (p : Nat → L) (v : Nat) : PolyDual p (MvPolynomial.X v) (DualNumber.singleton (p v) v) := by
  refine ⟨by simp [DualNumber.singleton], fun j => ?_⟩
  simp only [DualNumber.singleton, MvPolynomial.pderiv_X]
  by_cases h : j = v
  · subst h; simp
  · rw [if_neg h]; simp [h, Pi.single_apply, eq_comm]

/-! ### Formulas of tags -/

theorem collectVarsHelper_spec : ∀ (f : BoolForm) (s : List Nat), Asc s → Asc (f.collectVarsHelper s) ∧
    (∀ v ∈ s, v ∈ f.collectVarsHelper s) ∧ f.Over (f.collectVarsHelper s)
  | .fls, s, h => ⟨h, fun _ hv => hv, trivial⟩
  | .tru, s, h => ⟨h, fun _ hv => hv, trivial⟩
  | .pos v, s, h => ⟨bsetInsert_asc v s h, fun u hu => (mem_bsetInsert v u s).2 (.inr hu), (mem_bsetInsert v v s).2 (.inl rfl)⟩
  | .neg v, s, h => ⟨bsetInsert_asc v s h, fun u hu => (mem_bsetInsert v u s).2 (.inr hu), (mem_bsetInsert v v s).2 (.inl rfl)⟩
  | .not f, s, h => collectVarsHelper_spec f s h
  | .and l r, s, h => by
    obtain ⟨a1, a2, a3⟩ := collectVarsHelper_spec l s h
    obtain ⟨b1, b2, b3⟩ := collectVarsHelper_spec r _ a1
    exact ⟨b1, fun v hv => b2 v (a2 v hv), over_mono b2 a3, b3⟩
  | .or l r, s, h => by
    obtain ⟨a1, a2, a3⟩ := collectVarsHelper_spec l s h
    obtain ⟨b1, b2, b3⟩ := collectVarsHelper_spec r _ a1
    exact ⟨b1, fun v hv => b2 v (a2 v hv), over_mono b2 a3, b3⟩
where
  over_mono {s t : List Nat} (hst : ∀ v ∈ s, v ∈ t) : ∀ {f : BoolForm}, f.Over s → f.Over t
    | .fls, _ => trivial
    | .tru, _ => trivial
    | .pos _, h => hst _ h
    | .neg _, h => hst _ h
    | .not f, h => over_mono hst (f := f) h
    | .and l r, h => ⟨over_mono hst (f := l) h.1, over_mono hst (f := r) h.2⟩
    | .or l r, h => ⟨over_mono hst (f := l) h.1, over_mono hst (f := r) h.2⟩

theorem collectVars_spec (f : BoolForm) : f.collectVars.Nodup ∧ f.Over f.collectVars := by
  obtain ⟨h1, -, h3⟩ := collectVarsHelper_spec f [] List.Pairwise.nil
  exact ⟨h1.imp (fun h => ne_of_lt h), h3⟩

theorem bfConjunction_eval (w : Nat → Bool) (l : List BoolForm) : (bfConjunction l).eval w = l.all (fun f => f.eval w) := by
  cases l with
  | nil => rfl
  | cons f fs =>
    have : ∀ (fs : List BoolForm) (f : BoolForm), (fs.foldl .and f).eval w = (f.eval w && fs.all (fun f => f.eval w)) := by
      intro fs
      induction fs with
      | nil => intro f; simp
      | cons g gs ih => intro f; simp [ih, BoolForm.eval, Bool.and_assoc]
    simp [bfConjunction, this]

theorem bfDisjunction_eval (w : Nat → Bool) (l : List BoolForm) : (bfDisjunction l).eval w = l.any (fun f => f.eval w) := by
  cases l with
  | nil => rfl
  | cons f fs =>
    have : ∀ (fs : List BoolForm) (f : BoolForm), (fs.foldl .or f).eval w = (f.eval w || fs.any (fun f => f.eval w)) := by
      intro fs
      induction fs with
      | nil => intro f; simp
      | cons g gs ih => intro f; simp [ih, BoolForm.eval, Bool.or_assoc]
    simp [bfDisjunction, this]

theorem over_dep {vs : List Nat} : ∀ {f : BoolForm}, f.Over vs → Dep vs (fun w => f.eval w)
  | .fls, _ => fun _ _ _ => rfl
  | .tru, _ => fun _ _ _ => rfl
  | .pos v, h => fun w w' hw => hw v h
  | .neg v, h => fun w w' hw => congrArg (!·) (hw v h)
  | .not f, h => fun w w' hw => congrArg (!·) (over_dep (f := f) h w w' hw)
  | .and l r, h => fun w w' hw => congrArg₂ (· && ·) (over_dep (f := l) h.1 w w' hw) (over_dep (f := r) h.2 w w' hw)
  | .or l r, h => fun w w' hw => congrArg₂ (· || ·) (over_dep (f := l) h.1 w w' hw) (over_dep (f := r) h.2 w w' hw)

/-- Variables that do not occur do not matter. -/
theorem prob_extend {f : BoolForm} {vs : List Nat} (nd : vs.Nodup) (ho : f.Over vs) {V : Finset Nat} (hV : ∀ v ∈ vs, v ∈ V) (p : Nat → K) :
    f.prob p vs.toFinset = f.prob p V := by
  classical
  let us := (V \ vs.toFinset).toList
  have hus : ∀ u, u ∈ us ↔ u ∈ V ∧ u ∉ vs := by intro u; simp [us]
  have nd' : (vs ++ us).Nodup := List.nodup_append.2 ⟨nd, Finset.nodup_toList _, fun a ha b hb e => ((hus b).1 hb).2 (e ▸ ha)⟩
  have hV' : (vs ++ us).toFinset = V := by
    ext u
    simp only [List.mem_toFinset, List.mem_append, hus]
    constructor
    · rintro (h | h)
      · exact hV u h
      · exact h.1
    · intro h
      by_cases hu : u ∈ vs
      · exact .inl hu
      · exact .inr ⟨h, hu⟩
  rw [← hV', ← E_boolForm nd, ← E_boolForm nd', E_append]
  exact E_congr (fun w => (E_indep (over_dep ho).ind (fun v hv => ((hus v).1 hv).2) w).symm) _ _

theorem asBooleanFormula_eval (w : Nat → Bool) (t : Dnf) : t.asBooleanFormula.eval w = true ↔ dnfHolds w t := by
  simp only [Dnf.asBooleanFormula, bfDisjunction_eval, List.any_map, List.any_eq_true, Function.comp, bfConjunction_eval, List.all_map,
    List.all_eq_true, dnfHolds, Clause.holds]
  have hl : ∀ l : Literal, l.asBooleanFormula.eval w = true ↔ l.holds w := by
    intro l; cases l <;> simp [Literal.asBooleanFormula, BoolForm.eval, Literal.holds]
  simp only [hl]

/-- The variables of a formula. -/
def fvars : BoolForm → List Nat
  | .fls => []
  | .tru => []
  | .pos v => [v]
  | .neg v => [v]
  | .not f => fvars f
  | .and l r => fvars l ++ fvars r
  | .or l r => fvars l ++ fvars r

theorem mem_collectVarsHelper : ∀ (f : BoolForm) (s : List Nat) (v : Nat), v ∈ f.collectVarsHelper s ↔ v ∈ s ∨ v ∈ fvars f
  | .fls, s, v => by simp [BoolForm.collectVarsHelper, fvars]
  | .tru, s, v => by simp [BoolForm.collectVarsHelper, fvars]
  | .pos u, s, v => by simp [BoolForm.collectVarsHelper, fvars, mem_bsetInsert, or_comm]
  | .neg u, s, v => by simp [BoolForm.collectVarsHelper, fvars, mem_bsetInsert, or_comm]
  | .not f, s, v => mem_collectVarsHelper f s v
  | .and l r, s, v => by
    simp only [BoolForm.collectVarsHelper, fvars, mem_collectVarsHelper r, mem_collectVarsHelper l, List.mem_append, or_assoc]
  | .or l r, s, v => by
    simp only [BoolForm.collectVarsHelper, fvars, mem_collectVarsHelper r, mem_collectVarsHelper l, List.mem_append, or_assoc]

theorem fvars_bfConjunction (l : List BoolForm) (v : Nat) : v ∈ fvars (bfConjunction l) ↔ ∃ f ∈ l, v ∈ fvars f := by
  cases l with
  | nil => simp [bfConjunction, fvars]
  | cons f fs =>
    have : ∀ (fs : List BoolForm) (f : BoolForm), v ∈ fvars (fs.foldl .and f) ↔ v ∈ fvars f ∨ ∃ g ∈ fs, v ∈ fvars g := by
      intro fs
      induction fs with
      | nil => intro f; simp
      | cons g gs ih => intro f; simp [ih, fvars, or_assoc]
    simp [bfConjunction, this]

theorem fvars_bfDisjunction (l : List BoolForm) (v : Nat) : v ∈ fvars (bfDisjunction l) ↔ ∃ f ∈ l, v ∈ fvars f := by
  cases l with
  | nil => simp [bfDisjunction, fvars]
  | cons f fs =>
    have : ∀ (fs : List BoolForm) (f : BoolForm), v ∈ fvars (fs.foldl .or f) ↔ v ∈ fvars f ∨ ∃ g ∈ fs, v ∈ fvars g := by
      intro fs
      induction fs with
      | nil => intro f; simp
      | cons g gs ih => intro f; simp [ih, fvars, or_assoc]
    simp [bfDisjunction, this]

theorem mem_dnf_collectVars (t : Dnf) (v : Nat) : v ∈ t.asBooleanFormula.collectVars ↔ ∃ c ∈ t, ∃ l ∈ c, l.factId = v := by
  rw [BoolForm.collectVars, mem_collectVarsHelper]
  simp only [List.not_mem_nil, false_or, Dnf.asBooleanFormula, fvars_bfDisjunction, List.mem_map, exists_exists_and_eq_and, fvars_bfConjunction]
  have : ∀ l : Literal, v ∈ fvars l.asBooleanFormula ↔ l.factId = v := by
    intro l; cases l <;> simp [Literal.asBooleanFormula, fvars, Literal.factId, eq_comm]
  simp only [this]

theorem prob_eq_eventProb (f : BoolForm) (p : Nat → K) (V : Finset Nat) : f.prob p V = eventProb p V (fun w => f.eval w = true) := by
  unfold BoolForm.prob eventProb
  apply Finset.sum_congr rfl
  intro S _
  split <;> rfl

/-- Counting a formula. -/
theorem wmc_spec (f : BoolForm) (p : Nat → K) : f.wmc (Diagram.realAlgebra K) p = some (f.prob p f.collectVars.toFinset) := by
  obtain ⟨nd, ho⟩ := collectVars_spec f
  obtain ⟨b, d, h1, h2, -, h4⟩ := build_correct (K := K) nd (.inr rfl : _ ∨ VTree.Kind.balanced = .balanced) ho true
  simp only [BoolForm.wmc, h1, h2, h4]

theorem wmc_dual_spec {L : Type*} [Field L] [LinearOrder L] (f : BoolForm) (p : Nat → L) :
    ∃ x, f.wmc (Diagram.dualAlgebra L) (fun v => DualNumber.singleton (p v) v) = some x ∧ PolyDual p (f.probPoly L f.collectVars.toFinset) x := by
  obtain ⟨nd, ho⟩ := collectVars_spec f
  obtain ⟨b, d, h1, h2, -, h4⟩ := build_correct (K := MvPolynomial ℕ L) nd (.inr rfl : _ ∨ VTree.Kind.balanced = .balanced) ho true
  have hr := evalT_rel (related_dual p) d (fun v => polyDual_var p v)
  rw [h4 MvPolynomial.X] at hr
  rcases hr with ⟨h, -⟩ | ⟨x, y, e1, e2, hxy⟩
  · cases h
  · refine ⟨y, by simp only [BoolForm.wmc, h1, h2, e2], ?_⟩
    rw [← Option.some.inj e1] at hxy
    exact hxy

theorem prob_eval {L : Type*} [CommRing L] (f : BoolForm) (V : Finset Nat) (p : Nat → L) :
    (f.probPoly L V).eval p = f.prob p V := by
  unfold BoolForm.probPoly BoolForm.prob
  rw [map_sum]
  apply Finset.sum_congr rfl
  intro S _
  split
  · simp [map_prod]
  · simp

theorem eventProb_mono {L : Type*} [Field L] [LinearOrder L] [IsStrictOrderedRing L] {p : Nat → L} {V : Finset Nat}
    (hp : ∀ v ∈ V, 0 ≤ p v ∧ p v ≤ 1) {A B : (Nat → Bool) → Prop} (h : ∀ w, A w → B w) : eventProb p V A ≤ eventProb p V B := by
  unfold eventProb
  apply Finset.sum_le_sum
  intro S hS
  rw [Finset.mem_powerset] at hS
  have h0 : 0 ≤ (∏ x ∈ S, p x) * ∏ x ∈ V \ S, (1 - p x) :=
    mul_nonneg (Finset.prod_nonneg (fun x hx => (hp x (hS hx)).1))
      (Finset.prod_nonneg (fun x hx => sub_nonneg.2 (hp x (Finset.mem_sdiff.1 hx).1).2))
  split
  · rename_i ha
    rw [if_pos (h _ ha)]
  · split
    · exact h0
    · exact le_refl _

end Sdd

end Scallop
