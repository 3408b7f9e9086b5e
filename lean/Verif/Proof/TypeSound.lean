import Verif.Proof.TypeFix

/-! # Values have the types that inference gives -/

namespace Scallop.Ty

variable {F : Type}

/-! ## Locations of variables -/

mutual
theorem ofVar_suffix : ∀ (e : TExpr F) (l m : Loc) (x : String), Unif.ofVar m x ∈ e.unifs l → l <:+ m
  | .const c, l, m, x, h => by simp [TExpr.unifs] at h
  | .var y, l, m, x, h => by
    simp only [TExpr.unifs, List.mem_singleton, Unif.ofVar.injEq] at h
    rw [h.1]
    exact List.suffix_rfl
  | .wild, l, m, x, h => by simp [TExpr.unifs] at h
  | .bin op a b, l, m, x, h => by
    simp only [TExpr.unifs, List.mem_cons, reduceCtorEq, false_or, List.mem_append] at h
    rcases h with h | h
    · exact (List.suffix_cons 0 l).trans (ofVar_suffix a _ m x h)
    · exact (List.suffix_cons 1 l).trans (ofVar_suffix b _ m x h)
  | .un op a, l, m, x, h => by
    simp only [TExpr.unifs, List.mem_cons, reduceCtorEq, false_or] at h
    exact (List.suffix_cons 0 l).trans (ofVar_suffix a _ m x h)
  | .ite c a b, l, m, x, h => by
    simp only [TExpr.unifs, List.mem_cons, reduceCtorEq, false_or, List.mem_append] at h
    rcases h with (h | h) | h
    · exact (List.suffix_cons 0 l).trans (ofVar_suffix c _ m x h)
    · exact (List.suffix_cons 1 l).trans (ofVar_suffix a _ m x h)
    · exact (List.suffix_cons 2 l).trans (ofVar_suffix b _ m x h)
  | .call f args, l, m, x, h => by
    simp only [TExpr.unifs, List.mem_cons, reduceCtorEq, false_or] at h
    obtain ⟨j, _, h⟩ := ofVar_suffixList args l 0 m x h
    exact (List.suffix_cons j l).trans h
  | .new f args, l, m, x, h => by
    simp only [TExpr.unifs, List.mem_cons, reduceCtorEq, false_or] at h
    obtain ⟨j, _, h⟩ := ofVar_suffixList args l 0 m x h
    exact (List.suffix_cons j l).trans h
theorem ofVar_suffixList : ∀ (es : List (TExpr F)) (l : Loc) (i : Nat) (m : Loc) (x : String), Unif.ofVar m x ∈ TExpr.unifsList l i es →
    ∃ j, i ≤ j ∧ (j :: l) <:+ m
  | [], l, i, m, x, h => by simp [TExpr.unifsList] at h
  | e :: es, l, i, m, x, h => by
    simp only [TExpr.unifsList, List.mem_append] at h
    rcases h with h | h
    · exact ⟨i, Nat.le_refl _, ofVar_suffix e _ m x h⟩
    · obtain ⟨j, h1, h2⟩ := ofVar_suffixList es l (i + 1) m x h
      exact ⟨j, by omega, h2⟩
end

theorem suffix_same {a b : Nat} {l m : Loc} (h1 : (a :: l) <:+ m) (h2 : (b :: l) <:+ m) : a = b := by
  have : (a :: l) <:+ (b :: l) := List.suffix_of_suffix_length_le h1 h2 (by simp)
  have := this.eq_of_length (by simp)
  exact (List.cons.inj this).1

mutual
theorem ofVar_unique : ∀ (e : TExpr F) (l m : Loc) (x y : String), Unif.ofVar m x ∈ e.unifs l → Unif.ofVar m y ∈ e.unifs l → x = y
  | .const c, l, m, x, y, h, h' => by simp [TExpr.unifs] at h
  | .var z, l, m, x, y, h, h' => by
    simp only [TExpr.unifs, List.mem_singleton, Unif.ofVar.injEq] at h h'
    rw [h.2, h'.2]
  | .wild, l, m, x, y, h, h' => by simp [TExpr.unifs] at h
  | .bin op a b, l, m, x, y, h, h' => by
    simp only [TExpr.unifs, List.mem_cons, reduceCtorEq, false_or, List.mem_append] at h h'
    rcases h with h | h <;> rcases h' with h' | h'
    · exact ofVar_unique a _ m x y h h'
    · exact absurd (suffix_same (ofVar_suffix _ _ _ _ h) (ofVar_suffix _ _ _ _ h')) (by decide)
    · exact absurd (suffix_same (ofVar_suffix _ _ _ _ h) (ofVar_suffix _ _ _ _ h')) (by decide)
    · exact ofVar_unique b _ m x y h h'
  | .un op a, l, m, x, y, h, h' => by
    simp only [TExpr.unifs, List.mem_cons, reduceCtorEq, false_or] at h h'
    exact ofVar_unique a _ m x y h h'
  | .ite c a b, l, m, x, y, h, h' => by
    simp only [TExpr.unifs, List.mem_cons, reduceCtorEq, false_or, List.mem_append] at h h'
    rcases h with (h | h) | h <;> rcases h' with (h' | h') | h'
    · exact ofVar_unique c _ m x y h h'
    · exact absurd (suffix_same (ofVar_suffix _ _ _ _ h) (ofVar_suffix _ _ _ _ h')) (by decide)
    · exact absurd (suffix_same (ofVar_suffix _ _ _ _ h) (ofVar_suffix _ _ _ _ h')) (by decide)
    · exact absurd (suffix_same (ofVar_suffix _ _ _ _ h) (ofVar_suffix _ _ _ _ h')) (by decide)
    · exact ofVar_unique a _ m x y h h'
    · exact absurd (suffix_same (ofVar_suffix _ _ _ _ h) (ofVar_suffix _ _ _ _ h')) (by decide)
    · exact absurd (suffix_same (ofVar_suffix _ _ _ _ h) (ofVar_suffix _ _ _ _ h')) (by decide)
    · exact absurd (suffix_same (ofVar_suffix _ _ _ _ h) (ofVar_suffix _ _ _ _ h')) (by decide)
    · exact ofVar_unique b _ m x y h h'
  | .call f args, l, m, x, y, h, h' => by
    simp only [TExpr.unifs, List.mem_cons, reduceCtorEq, false_or] at h h'
    exact ofVar_uniqueList args l 0 m x y h h'
  | .new f args, l, m, x, y, h, h' => by
    simp only [TExpr.unifs, List.mem_cons, reduceCtorEq, false_or] at h h'
    exact ofVar_uniqueList args l 0 m x y h h'
theorem ofVar_uniqueList : ∀ (es : List (TExpr F)) (l : Loc) (i : Nat) (m : Loc) (x y : String), Unif.ofVar m x ∈ TExpr.unifsList l i es →
    Unif.ofVar m y ∈ TExpr.unifsList l i es → x = y
  | [], l, i, m, x, y, h, h' => by simp [TExpr.unifsList] at h
  | e :: es, l, i, m, x, y, h, h' => by
    simp only [TExpr.unifsList, List.mem_append] at h h'
    rcases h with h | h <;> rcases h' with h' | h'
    · exact ofVar_unique e _ m x y h h'
    · obtain ⟨j, h1, h2⟩ := ofVar_suffixList es l (i + 1) m y h'
      have := suffix_same (ofVar_suffix _ _ _ _ h) h2
      omega
    · obtain ⟨j, h1, h2⟩ := ofVar_suffixList es l (i + 1) m x h
      have := suffix_same (ofVar_suffix _ _ _ _ h') h2
      omega
    · exact ofVar_uniqueList es l (i + 1) m x y h h'
end

theorem atom_ofVar {a : TAtom F} {l m : Loc} {x : String} (h : Unif.ofVar m x ∈ a.unifs l) : Unif.ofVar m x ∈ TExpr.unifsList l 0 a.args := by
  simp only [TAtom.unifs, List.mem_append, List.mem_map, reduceCtorEq, and_false, exists_false, false_or] at h
  exact h

theorem lit_suffix {a : TLit F} {l m : Loc} {x : String} (h : Unif.ofVar m x ∈ a.unifs l) : l <:+ m := by
  cases a with
  | pos a => obtain ⟨j, _, h⟩ := ofVar_suffixList _ _ _ _ _ (atom_ofVar h); exact (List.suffix_cons j l).trans h
  | neg a => obtain ⟨j, _, h⟩ := ofVar_suffixList _ _ _ _ _ (atom_ofVar h); exact (List.suffix_cons j l).trans h
  | constraint e => exact (List.suffix_cons 0 l).trans (ofVar_suffix e _ m x h)

theorem lit_unique {a : TLit F} {l m : Loc} {x y : String} (h : Unif.ofVar m x ∈ a.unifs l) (h' : Unif.ofVar m y ∈ a.unifs l) : x = y := by
  cases a with
  | pos a => exact ofVar_uniqueList _ _ _ _ _ _ (atom_ofVar h) (atom_ofVar h')
  | neg a => exact ofVar_uniqueList _ _ _ _ _ _ (atom_ofVar h) (atom_ofVar h')
  | constraint e => exact ofVar_unique e _ m x y h h'

theorem ctx_unifs {r : TRule F} {i : Nat} {u : Unif} : u ∈ (r.ctx i).unifs ↔ ∃ (j : Nat) (a : TLit F), r.lits[j]? = some a ∧ u ∈ a.unifs [j, i] := by
  simp only [TRule.ctx, List.mem_flatten, List.mem_map]
  constructor
  · rintro ⟨_, ⟨⟨a, j⟩, h1, rfl⟩, h2⟩
    exact ⟨j, a, List.mem_zipIdx_iff_getElem?.1 h1, h2⟩
  · rintro ⟨j, a, h1, h2⟩
    exact ⟨_, ⟨(a, j), List.mem_zipIdx_iff_getElem?.2 h1, rfl⟩, h2⟩

theorem ctx_unique {r : TRule F} {i : Nat} {m : Loc} {x y : String} (h : Unif.ofVar m x ∈ (r.ctx i).unifs)
    (h' : Unif.ofVar m y ∈ (r.ctx i).unifs) : x = y := by
  obtain ⟨j, a, h1, h2⟩ := ctx_unifs.1 h
  obtain ⟨j', a', h1', h2'⟩ := ctx_unifs.1 h'
  have := suffix_same (lit_suffix h2) (lit_suffix h2')
  subst this
  rw [h1] at h1'
  simp only [Option.some.injEq] at h1'
  subst h1'
  exact lit_unique h2 h2'

theorem mem_varLocs {c : Ctx} {x : String} {l : Loc} : l ∈ c.varLocs x ↔ Unif.ofVar l x ∈ c.unifs := by
  simp only [Ctx.varLocs, List.mem_filterMap]
  constructor
  · rintro ⟨u, hu, h⟩
    cases u <;> simp only [reduceCtorEq] at h
    split at h
    · next hx => simp only [Option.some.injEq] at h; subst h; subst hx; exact hu
    · simp at h
  · intro h
    exact ⟨_, h, by simp⟩

theorem mem_vars {c : Ctx} {x : String} {l : Loc} (h : Unif.ofVar l x ∈ c.unifs) : x ∈ c.vars := by
  simp only [Ctx.vars, List.mem_dedup, List.mem_filterMap]
  exact ⟨_, h, rfl⟩

theorem vars_same {r : TRule F} {i : Nat} {s : ET} (h : (r.ctx i).propVars s = .ok s) {x : String} {l l' : Loc}
    (hl : Unif.ofVar l x ∈ (r.ctx i).unifs) (hl' : Unif.ofVar l' x ∈ (r.ctx i).unifs) : s l = s l' ∧ (s l).isSome = true := by
  have key : ∀ l, Unif.ofVar l x ∈ (r.ctx i).unifs → s l = (r.ctx i).varTy s x ∧ (s l).isSome = true := by
    intro l hl
    rcases propVars_ok h l with ⟨_, h2⟩ | ⟨y, t, _, h3, h4, h5⟩
    · exact absurd (mem_varLocs.2 hl) (h2 x (mem_vars hl))
    · have := ctx_unique hl (mem_varLocs.1 h3)
      subst this
      rw [h4, h5]; exact ⟨rfl, rfl⟩
  exact ⟨(key l hl).1.trans (key l' hl').1.symm, (key l hl).2⟩

/-! ## Operators -/

/-- The types that have values here. -/
def VTy.inhabited : VTy → Bool
  | .str | .datetime | .duration | .tensor => false
  | _ => true

theorem ty_inhabited (v : Val F) : v.ty.inhabited = true := by cases v <;> rfl

private def ruleOk (op : BinOp) (x : VTy × VTy × VTy) : Bool :=
  !x.1.inhabited || !x.2.1.inhabited ||
    (x.2.1 == x.1 && x.2.2 == x.1 && (x.1.isInt || x.1.isFloat || (x.1 == .string && op == .add)))

private theorem rules_all (op : BinOp) : (arithRules op).all (fun rs => rs.all (ruleOk op)) = true := by
  cases op <;> decide +kernel

theorem arith_rule {op : BinOp} {rules : List (VTy × VTy × VTy)} (hr : arithRules op = some rules) {t1 t2 te : VTy} (h : (t1, t2, te) ∈ rules)
    (h1 : t1.inhabited = true) (h2 : t2.inhabited = true) :
    t2 = t1 ∧ te = t1 ∧ (t1.isInt = true ∨ t1.isFloat = true ∨ (t1 = .string ∧ op = .add)) := by
  have := rules_all op
  rw [hr, Option.all_some, List.all_eq_true] at this
  have := this _ h
  simp only [ruleOk, h1, h2, Bool.not_true, Bool.false_or, Bool.and_eq_true, Bool.or_eq_true, beq_iff_eq] at this
  obtain ⟨⟨a1, a2⟩, a3⟩ := this
  exact ⟨a1, a2, by rw [← or_assoc]; exact a3⟩

theorem cmp_rule {t1 t2 : VTy} (h : (t1, t2) ∈ cmpRules) (h1 : t1.inhabited = true) : t2 = t1 ∧ (t1.isInt = true ∨ t1.isFloat = true) := by
  have all : ∀ x ∈ cmpRules, x.1.inhabited = true → x.2 = x.1 ∧ (x.1.isInt = true ∨ x.1.isFloat = true) := by decide +kernel
  exact all _ h h1

theorem ty_int {v : Val F} {k : IntTy} (h : v.ty = .int k) : ∃ n, v = .int k n := by
  cases v <;> simp_all [Val.ty]
theorem ty_float {v : Val F} {k : FloatTy} (h : v.ty = .float k) : ∃ n, v = .float k n := by
  cases v <;> simp_all [Val.ty]
theorem ty_bool {v : Val F} (h : v.ty = .bool) : ∃ b, v = .bool b := by
  cases v <;> simp_all [Val.ty]
theorem ty_string {v : Val F} (h : v.ty = .string) : ∃ b, v = .string b := by
  cases v <;> simp_all [Val.ty]
theorem isInt_iff {t : VTy} (h : t.isInt = true) : ∃ k, t = .int k := by cases t <;> simp_all [VTy.isInt]
theorem isFloat_iff {t : VTy} (h : t.isFloat = true) : ∃ k, t = .float k := by cases t <;> simp_all [VTy.isFloat]
theorem isSigned_iff {t : VTy} (h : t.isSigned = true) : ∃ k, t = .int k ∧ k.signed = true := by cases t <;> simp_all [VTy.isSigned]

theorem fits_zero (k : IntTy) : k.fits 0 = true := by cases k <;> decide
theorem fits_one (k : IntTy) : k.fits 1 = true := by cases k <;> decide

/-- The operators that test. -/
def isTest : BinOp → Bool
  | .eq | .neq | .lt | .leq | .gt | .geq | .and | .or | .xor => true
  | _ => false

theorem evalInt_ty {op : BinOp} {k : IntTy} {a b : Int} {v : Val F} (h : evalInt op k a b = .ok v) :
    v.ty = if isTest op then .bool else .int k := by
  cases op <;> simp only [evalInt, isTest, reduceCtorEq] at h ⊢
  case mul => split at h <;> simp at h; subst h; rfl
  case div => split at h <;> (try split at h) <;> simp at h; subst h; rfl
  case mod => split at h <;> (try split at h) <;> simp at h; subst h; rfl
  all_goals (simp only [Outcome.ok.injEq] at h; subst h; rfl)

theorem evalFloat_ty {X : Ext F} {op : BinOp} {k : FloatTy} {a b : F} {v : Val F} (h : evalFloat X op k a b = .ok v) :
    v.ty = if isTest op then .bool else .float k := by
  cases op <;> simp only [evalFloat, isTest, reduceCtorEq] at h ⊢
  case div => split at h <;> simp at h; subst h; rfl
  all_goals (simp only [Outcome.ok.injEq] at h; subst h; rfl)

theorem evalBin_ty {X : Ext F} {op : BinOp} {a b v : Val F} (h : evalBin X .run op a b = .ok v) :
    b.ty = a.ty ∧ v.ty = if isTest op then .bool else a.ty := by
  cases a <;> cases b <;> simp only [evalBin, reduceCtorEq] at h
  case int.int k n k' n' =>
    split at h
    · next hk => subst hk; exact ⟨rfl, evalInt_ty h⟩
    · simp at h
  case float.float k n k' n' =>
    split at h
    · next hk => subst hk; exact ⟨rfl, evalFloat_ty h⟩
    · simp at h
  all_goals
    refine ⟨rfl, ?_⟩
    cases op <;> simp only [reduceCtorEq, Outcome.ok.injEq] at h <;> subst h <;> rfl

theorem evalBin_test {X : Ext F} {op : BinOp} (ho : isTest op = true) {a b v : Val F} (h : evalBin X .run op a b = .ok v) : v.ty = .bool := by
  rw [(evalBin_ty h).2, ho]; rfl

theorem evalBin_arith {X : Ext F} {op : BinOp} (ho : isTest op = false) {a b v : Val F} (h : evalBin X .run op a b = .ok v) :
    v.ty = a.ty ∧ b.ty = a.ty := by
  refine ⟨?_, (evalBin_ty h).1⟩
  rw [(evalBin_ty h).2, ho]; rfl

theorem int_ok {X : Ext F} {op : BinOp} {k : IntTy} (ho : op ≠ .and ∧ op ≠ .or ∧ op ≠ .xor) :
    ∃ a b : Val F, a.ty = .int k ∧ b.ty = .int k ∧ evalBin X .run op a b ≠ .panic := by
  refine ⟨.int k 0, .int k 1, rfl, rfl, ?_⟩
  cases op <;> simp_all [evalBin, evalInt, fits_zero]

theorem float_ok {X : Ext F} {op : BinOp} {k : FloatTy} (x y : F) (ho : op ≠ .and ∧ op ≠ .or ∧ op ≠ .xor ∧ op ≠ .mod) :
    evalBin X .run op (.float k x) (.float k y) ≠ .panic := by
  cases op <;> simp_all [evalBin, evalFloat]
  split <;> simp

theorem eq_ok {X : Ext F} {op : BinOp} (ho : op = .eq ∨ op = .neq) {a b : Val F} (h : a.ty = b.ty) : evalBin X .run op a b ≠ .panic := by
  rcases ho with rfl | rfl <;> cases a <;> cases b <;> simp_all [Val.ty, evalBin, evalInt, evalFloat]

theorem logic_ok {X : Ext F} {op : BinOp} (ho : op = .and ∨ op = .or ∨ op = .xor) {a b : Val F} (ha : a.ty = .bool) (hb : b.ty = .bool) :
    evalBin X .run op a b ≠ .panic := by
  obtain ⟨a, rfl⟩ := ty_bool ha
  obtain ⟨b, rfl⟩ := ty_bool hb
  rcases ho with rfl | rfl | rfl <;> simp [evalBin]

/-- Operators that a rule of the tables allows can succeed. -/
theorem num_ok {X : Ext F} {op : BinOp} {t : VTy} {a b : Val F} (ha : a.ty = t) (hb : b.ty = t)
    (ho : op ≠ .and ∧ op ≠ .or ∧ op ≠ .xor ∧ op ≠ .mod) (ht : t.isInt = true ∨ t.isFloat = true) : ¬ BinTypeError X op a b := by
  intro h
  rcases ht with ht | ht
  · obtain ⟨k, rfl⟩ := isInt_iff ht
    obtain ⟨a', b', h1, h2, h3⟩ := int_ok (X := X) (op := op) (k := k) ⟨ho.1, ho.2.1, ho.2.2.1⟩
    exact h3 (h a' b' (h1.trans ha.symm) (h2.trans hb.symm))
  · obtain ⟨k, rfl⟩ := isFloat_iff ht
    obtain ⟨x, rfl⟩ := ty_float ha
    obtain ⟨y, rfl⟩ := ty_float hb
    exact float_ok x y ho (h _ _ rfl rfl)

theorem toVal_ty {ofInt : FloatTy → Int → F} {toF : FloatTy → F → F} {c : Const F} {t : VTy} {v : Val F} (h : c.toVal ofInt toF t = some v) :
    v.ty = t := by
  cases c <;> cases t <;> simp [Const.toVal] at h <;> subst h <;> rfl

theorem default_of_le {a b : TSet} (h : a.le b) : b.contains a.default = true := TSet.contains_mono h (TSet.contains_default a)

theorem toVal_some {ofInt : FloatTy → Int → F} {toF : FloatTy → F → F} {c : Const F} {t : TSet} (h : t.le c.typeSet) (hs : t ≠ .base .str) :
    (c.toVal ofInt toF t.default).isSome = true := by
  have hd := default_of_le h
  have hs' : t.default ≠ .str := by cases t <;> simp_all [TSet.default]
  generalize t.default = d at hd hs'
  cases c <;> simp only [Const.typeSet] at hd
  case int n => split at hd <;> cases d <;> simp_all [TSet.contains, VTy.isSigned, VTy.isNumeric, VTy.isInt, VTy.isFloat, Const.toVal]
  all_goals cases d <;> simp_all [TSet.contains, VTy.isFloat, VTy.isString, Const.toVal]

/-! ## Expressions -/

theorem mem_unifsList {es : List (TExpr F)} {l : Loc} {i k : Nat} {e : TExpr F} (h : es[k]? = some e) {u : Unif} (hu : u ∈ e.unifs ((i + k) :: l)) :
    u ∈ TExpr.unifsList l i es := by
  induction es generalizing i k with
  | nil => simp at h
  | cons a es ih =>
    simp only [TExpr.unifsList, List.mem_append]
    cases k with
    | zero =>
      simp only [List.getElem?_cons_zero, Option.some.injEq] at h
      subst h
      exact Or.inl hu
    | succ k =>
      simp only [List.getElem?_cons_succ] at h
      refine Or.inr (ih h ?_)
      rwa [Nat.add_assoc, Nat.add_comm 1 k]

theorem kids_get {l : Loc} {n k : Nat} (h : k < n) : (kids l n)[k]? = some (k :: l) := by simp [kids, h]

section
variable {X : Ext F} {ofInt : FloatTy → Int → F} {toF : FloatTy → F → F} {env : Env} {s : ET} {us : List Unif}
  (hsat : ∀ u ∈ us, u.Sat env s) (hcast : CastsAsCoded X env) (hcall : CallsTyped X env) (hfun : FunsOk env)
  {ρ : String → Option (Val F)} (hρ : ∀ x v l, ρ x = some v → Unif.ofVar l x ∈ us → ∃ t, s l = some t ∧ v.ty = t.default)

/-- The number of arguments is at least that of the required ones and, without variable arguments, at most that of all of them. -/
theorem validArity_iff {ft : FunTy} {n : Nat} : ft.validArity n = true ↔
    ft.statics.length ≤ n ∧ (ft.variadic = none → n ≤ ft.statics.length + ft.optionals.length) := by
  unfold FunTy.validArity
  cases hv : ft.variadic <;> simp <;> omega

/-- Arguments of the types given to their locations fit the type of the function. -/
theorem args_fit (hsat : ∀ u ∈ us, u.Sat env s) (hfun : FunsOk env) {f : String} {l : Loc} {n : Nat} {vs : List (Val F)}
    (hu : Unif.call f (kids l n) l ∈ us) (hlen : vs.length = n)
    (hv : ∀ k v, vs[k]? = some v → ∃ t, s (k :: l) = some t ∧ v.ty = t.default) {ft : FunTy} (hft : env.funs f = some ft) :
    ArgsFit ft vs := by
  obtain ⟨ft', h1, h2, h3, h4, h5⟩ := hsat _ hu
  rw [hft] at h1
  simp only [Option.some.injEq] at h1
  subst h1
  have lt : ∀ {k : Nat} {v : Val F}, vs[k]? = some v → (kids l n)[k]? = some (k :: l) := fun {k v} h => by
    obtain ⟨h', _⟩ := List.getElem?_eq_some_iff.1 h
    exact kids_get (by omega)
  have inst : ∀ {k g : Nat}, (kids l n)[k]? = some (k :: l) → ft.argTy k = some (.generic g) → (k :: l) ∈ instances ft (kids l n) l g := by
    intro k g hk hg
    simp only [instances, List.mem_append, List.mem_map, List.mem_filter]
    exact Or.inl ⟨(k :: l, k), ⟨List.mem_zipIdx_iff_getElem?.2 hk, by simp [hg]⟩, rfl⟩
  refine ⟨validArity_iff.1 (by rw [hlen]; simpa [kids] using h2), fun k v t hk ht => ?_, fun j k v w g hj hk tj tk => ?_, fun k v g fam hk tk hf => ?_⟩
  · obtain ⟨ta, g1, g2⟩ := h3 k (k :: l) t (lt hk) ht
    obtain ⟨t', e1, e2⟩ := hv k v hk
    rw [g1] at e1
    simp only [Option.some.injEq] at e1
    subst e1
    rw [e2]; exact default_of_le g2
  · obtain ⟨fam, hfam⟩ : ∃ fam, ft.generics[g]? = some fam := ⟨_, List.getElem?_eq_getElem ((hfun f ft hft).1 j g tj)⟩
    obtain ⟨t, _, ht⟩ := h5 g fam hfam
    obtain ⟨t1, e1, e2⟩ := hv j v hj
    obtain ⟨t2, e3, e4⟩ := hv k w hk
    rw [ht _ (inst (lt hj) tj)] at e1
    rw [ht _ (inst (lt hk) tk)] at e3
    simp only [Option.some.injEq] at e1 e3
    subst e1
    subst e3
    rw [e2, e4]
  · obtain ⟨t, hle, ht⟩ := h5 g fam hf
    obtain ⟨t1, e1, e2⟩ := hv k v hk
    rw [ht _ (inst (lt hk) tk)] at e1
    simp only [Option.some.injEq] at e1
    subst e1
    rw [e2]; exact default_of_le hle

include hsat hcast hcall hfun hρ

theorem eval_typed {l : Loc} {e : TExpr F} {v : Val F} (h : Eval X ofInt toF s ρ l e v) (hu : ∀ u ∈ e.unifs l, u ∈ us) :
    ∃ t, s l = some t ∧ v.ty = t.default := by
  induction h with
  | const h1 h2 => exact ⟨_, h1, toVal_ty h2⟩
  | @var l x v h => exact hρ x v l h (hu _ (by simp [TExpr.unifs]))
  | @bin l op a b va vb v ha hb hv iha ihb =>
    simp only [TExpr.unifs, List.mem_cons, List.mem_append] at hu
    obtain ⟨ta, ea, fa⟩ := iha fun u h => hu u (Or.inr (Or.inl h))
    obtain ⟨tb, eb, fb⟩ := ihb fun u h => hu u (Or.inr (Or.inr h))
    have sat := hsat _ (hu _ (Or.inl rfl))
    cases op
    case mod =>
      obtain ⟨t, h1, h2, h3⟩ := sat
      rw [h1] at ea
      simp only [Option.some.injEq] at ea
      subst ea
      exact ⟨t, h3, (evalBin_arith rfl hv).1.trans fa⟩
    case add | sub | mul | div =>
      obtain ⟨rules, t1, t2, te, hr, hm, h1, h2, h3⟩ := sat
      rw [h1] at ea; rw [h2] at eb
      simp only [Option.some.injEq] at ea eb
      subst ea; subst eb
      simp only [TSet.default] at fa fb
      obtain ⟨_, rfl, _⟩ := arith_rule hr hm (fa ▸ ty_inhabited va) (fb ▸ ty_inhabited vb)
      exact ⟨_, h3, (evalBin_arith rfl hv).1.trans fa⟩
    case and | or | xor => exact ⟨_, sat.2.2, evalBin_test rfl hv⟩
    case eq | neq => obtain ⟨t, h1, h2, h3⟩ := sat; exact ⟨_, h3, evalBin_test rfl hv⟩
    case lt | leq | gt | geq => obtain ⟨t1, t2, _, h1, h2, h3⟩ := sat; exact ⟨_, h3, evalBin_test rfl hv⟩
  | @un l op a va v ha hv iha =>
    simp only [TExpr.unifs, List.mem_cons] at hu
    obtain ⟨ta, ea, fa⟩ := iha fun u h => hu u (Or.inr h)
    have sat := hsat _ (hu _ (Or.inl rfl))
    cases op
    case pos =>
      obtain ⟨t, h1, h2⟩ := sat
      rw [h1] at ea
      simp only [Option.some.injEq] at ea
      subst ea
      simp only [evalUn, Outcome.ok.injEq] at hv
      exact ⟨t, h2, by rw [← hv]; exact fa⟩
    case neg =>
      obtain ⟨t, h1, h2⟩ := sat
      rw [h1] at ea
      simp only [Option.some.injEq] at ea
      subst ea
      refine ⟨t, h2, ?_⟩
      rw [← fa]
      cases va <;> simp only [evalUn, reduceCtorEq] at hv
      · split at hv
        · simp only [Outcome.ok.injEq] at hv; subst hv; rfl
        · simp at hv
      · simp only [Outcome.ok.injEq] at hv; subst hv; rfl
    case not =>
      refine ⟨_, sat.2, ?_⟩
      cases va <;> simp only [evalUn, reduceCtorEq] at hv
      simp only [Outcome.ok.injEq] at hv; subst hv; rfl
    case cast n =>
      obtain ⟨b, t, h1, h2, h3⟩ := sat
      exact ⟨_, h3, (hcast n b h1).1 _ _ hv⟩
  | @iteT l c a b v hc ha ihc iha =>
    simp only [TExpr.unifs, List.mem_cons, List.mem_append] at hu
    obtain ⟨_, ty, h1, h2, h3⟩ := hsat _ (hu _ (Or.inl rfl)) (by simp)
    obtain ⟨t, e1, e2⟩ := iha fun u h => hu u (Or.inr (Or.inl (Or.inr h)))
    rw [h2] at e1
    simp only [Option.some.injEq] at e1
    subst e1
    exact ⟨ty, h1, e2⟩
  | @iteF l c a b v hc ha ihc iha =>
    simp only [TExpr.unifs, List.mem_cons, List.mem_append] at hu
    obtain ⟨_, ty, h1, h2, h3⟩ := hsat _ (hu _ (Or.inl rfl)) (by simp)
    obtain ⟨t, e1, e2⟩ := iha fun u h => hu u (Or.inr (Or.inr h))
    rw [h3] at e1
    simp only [Option.some.injEq] at e1
    subst e1
    exact ⟨ty, h1, e2⟩
  | @call l f args vs v hlen hargs hv ih =>
    simp only [TExpr.unifs, List.mem_cons] at hu
    have hcu := hu _ (Or.inl rfl)
    have hvs : ∀ k v, vs[k]? = some v → ∃ t, s (k :: l) = some t ∧ v.ty = t.default := by
      intro k w hk
      obtain ⟨hk', _⟩ := List.getElem?_eq_some_iff.1 hk
      have he : args[k]? = some (args[k]'(by omega)) := List.getElem?_eq_getElem _
      exact ih k _ w he hk fun u h => hu u (Or.inr (mem_unifsList (i := 0) he (by simpa using h)))
    obtain ⟨ft, h1, h2, h3, h4, h5⟩ := hsat _ hcu
    have fit := args_fit hsat hfun hcu hlen hvs h1
    obtain ⟨r1, r2⟩ := hcall f ft vs v h1 fit hv
    cases hret : ft.ret with
    | base t => exact ⟨_, h4 t hret, r1 t hret⟩
    | generic g =>
      have hg := (hfun f ft h1).2 g hret
      obtain ⟨k, w, hgk, hw, hvw⟩ := r2 g hret
      have hkl : k < vs.length := (List.getElem?_eq_some_iff.1 hw).1
      obtain ⟨t, _, ht⟩ := h5 g _ (List.getElem?_eq_getElem hg)
      have e1 := ht l (by simp [instances, hret])
      have e2 := ht (k :: l) (by
        simp only [instances, List.mem_append, List.mem_map, List.mem_filter]
        exact Or.inl ⟨(k :: l, k), ⟨List.mem_zipIdx_iff_getElem?.2 (kids_get (by omega)), by simp [hgk]⟩, rfl⟩)
      obtain ⟨t', e3, e4⟩ := hvs k _ hw
      rw [e2] at e3
      simp only [Option.some.injEq] at e3
      subst e3
      exact ⟨t, e1, hvw.trans e4⟩
  | @new l f args vs hlen hargs ih =>
    simp only [TExpr.unifs, List.mem_cons] at hu
    exact ⟨_, hsat _ (hu _ (Or.inl rfl)), rfl⟩

theorem no_typeErr (hsup : ∀ u ∈ us, u.supported env s = true) {l : Loc} {e : TExpr F} (hu : ∀ u ∈ e.unifs l, u ∈ us) : ¬ TypeErr X ofInt toF env s ρ l e := by
  intro h
  induction h with
  | @lit l c t h1 h2 =>
    have hm := hu (.ofConst l c.typeSet) (by simp [TExpr.unifs])
    obtain ⟨t', e1, e2⟩ := hsat _ hm
    rw [h1] at e1
    simp only [Option.some.injEq] at e1
    subst e1
    have hs := hsup _ hm
    simp only [Unif.supported, h1, bne_iff_ne, ne_eq, Option.some.injEq] at hs
    have := toVal_some (ofInt := ofInt) (toF := toF) e2 hs
    rw [h2] at this
    simp at this
  | left _ ih =>
    simp only [TExpr.unifs, List.mem_cons, List.mem_append] at hu
    exact ih fun u h => hu u (Or.inr (Or.inl h))
  | right _ ih =>
    simp only [TExpr.unifs, List.mem_cons, List.mem_append] at hu
    exact ih fun u h => hu u (Or.inr (Or.inr h))
  | @bin l op a b va vb ha hb he =>
    simp only [TExpr.unifs, List.mem_cons, List.mem_append] at hu
    obtain ⟨ta, ea, fa⟩ := eval_typed hsat hcast hcall hfun hρ ha fun u h => hu u (Or.inr (Or.inl h))
    obtain ⟨tb, eb, fb⟩ := eval_typed hsat hcast hcall hfun hρ hb fun u h => hu u (Or.inr (Or.inr h))
    have hm := hu _ (Or.inl rfl)
    have sat := hsat _ hm
    have sup := hsup _ hm
    cases op
    case mod =>
      obtain ⟨t, h1, h2, h3⟩ := sat
      rw [h1] at ea; rw [h2] at eb
      simp only [Option.some.injEq] at ea eb
      subst ea; subst eb
      simp only [Unif.supported, h3, Option.all_some] at sup
      obtain ⟨k, hk⟩ := isInt_iff sup
      obtain ⟨a', b', g1, g2, g3⟩ := int_ok (X := X) (op := .mod) (k := k) (by simp)
      exact g3 (he a' b' (by rw [g1, fa, hk]) (by rw [g2, fb, hk]))
    case add | sub | mul | div =>
      obtain ⟨rules, t1, t2, te, hr, hm, h1, h2, h3⟩ := sat
      rw [h1] at ea; rw [h2] at eb
      simp only [Option.some.injEq] at ea eb
      subst ea; subst eb
      simp only [TSet.default] at fa fb
      obtain ⟨rfl, rfl, h | h | ⟨h, ho⟩⟩ := arith_rule hr hm (fa ▸ ty_inhabited va) (fb ▸ ty_inhabited vb)
      · exact num_ok fa fb (by simp) (Or.inl h) he
      · exact num_ok fa fb (by simp) (Or.inr h) he
      · subst h
        obtain ⟨x, rfl⟩ := ty_string fa
        obtain ⟨y, rfl⟩ := ty_string fb
        have := he _ _ rfl rfl
        simp [evalBin] at this ho
    case and | or | xor =>
      obtain ⟨h1, h2, _⟩ := sat
      rw [h1] at ea; rw [h2] at eb
      simp only [Option.some.injEq] at ea eb
      subst ea; subst eb
      exact logic_ok (by simp) fa fb (he _ _ rfl rfl)
    case eq | neq =>
      obtain ⟨t, h1, h2, h3⟩ := sat
      rw [h1] at ea; rw [h2] at eb
      simp only [Option.some.injEq] at ea eb
      subst ea; subst eb
      exact eq_ok (by simp) (fa.trans fb.symm) (he _ _ rfl rfl)
    case lt | leq | gt | geq =>
      obtain ⟨t1, t2, hm, h1, h2, h3⟩ := sat
      rw [h1] at ea; rw [h2] at eb
      simp only [Option.some.injEq] at ea eb
      subst ea; subst eb
      simp only [TSet.default] at fa fb
      obtain ⟨rfl, h⟩ := cmp_rule hm (fa ▸ ty_inhabited va)
      exact num_ok fa fb (by simp) h he
  | operand _ ih =>
    simp only [TExpr.unifs, List.mem_cons] at hu
    exact ih fun u h => hu u (Or.inr h)
  | @un l op a va ha he =>
    simp only [TExpr.unifs, List.mem_cons] at hu
    obtain ⟨ta, ea, fa⟩ := eval_typed hsat hcast hcall hfun hρ ha fun u h => hu u (Or.inr h)
    have hm := hu _ (Or.inl rfl)
    have sat := hsat _ hm
    have sup := hsup _ hm
    cases op
    case pos => have := he va rfl; simp [evalUn] at this
    case neg =>
      obtain ⟨t, h1, h2⟩ := sat
      rw [h1] at ea
      simp only [Option.some.injEq] at ea
      subst ea
      simp only [Unif.supported, h2, Option.all_some, Bool.or_eq_true] at sup
      rcases sup with h | h
      · obtain ⟨k, hk, hsg⟩ := isSigned_iff h
        have := he (.int k 0) (by rw [fa, hk]; rfl)
        simp [evalUn, hsg, fits_zero] at this
      · obtain ⟨k, hk⟩ := isFloat_iff h
        rw [hk] at fa
        obtain ⟨x, rfl⟩ := ty_float fa
        have := he _ rfl
        simp [evalUn] at this
    case not =>
      rw [sat.1] at ea
      simp only [Option.some.injEq] at ea
      subst ea
      obtain ⟨x, rfl⟩ := ty_bool fa
      have := he _ rfl
      simp [evalUn] at this
    case cast n =>
      obtain ⟨b, t, h1, h2, h3⟩ := sat
      rw [h2] at ea
      simp only [Option.some.injEq] at ea
      subst ea
      simp only [Unif.supported, h2, h1, Option.all_some] at sup
      obtain ⟨v', g1, g2⟩ := (hcast n b h1).2 va (by rw [fa]; exact sup)
      exact g2 (he v' g1)
  | cond _ ih =>
    simp only [TExpr.unifs, List.mem_cons, List.mem_append] at hu
    exact ih fun u h => hu u (Or.inr (Or.inl (Or.inl h)))
  | @notBool l c a b v hc hb =>
    simp only [TExpr.unifs, List.mem_cons, List.mem_append] at hu
    obtain ⟨h0, _⟩ := hsat _ (hu _ (Or.inl rfl)) (by simp)
    obtain ⟨t, e1, e2⟩ := eval_typed hsat hcast hcall hfun hρ hc fun u h => hu u (Or.inr (Or.inl (Or.inl h)))
    rw [h0] at e1
    simp only [Option.some.injEq] at e1
    subst e1
    exact hb e2
  | thn _ ih =>
    simp only [TExpr.unifs, List.mem_cons, List.mem_append] at hu
    exact ih fun u h => hu u (Or.inr (Or.inl (Or.inr h)))
  | els _ ih =>
    simp only [TExpr.unifs, List.mem_cons, List.mem_append] at hu
    exact ih fun u h => hu u (Or.inr (Or.inr h))
  | arg hk _ ih =>
    simp only [TExpr.unifs, List.mem_cons] at hu
    exact ih fun u h => hu u (Or.inr (mem_unifsList (i := 0) hk (by simpa using h)))
  | @call l f args vs ft hlen hargs hft hnf =>
    simp only [TExpr.unifs, List.mem_cons] at hu
    refine hnf (args_fit hsat hfun (hu _ (Or.inl rfl)) hlen (fun k w hk => ?_) hft)
    obtain ⟨hk', _⟩ := List.getElem?_eq_some_iff.1 hk
    have he : args[k]? = some (args[k]'(by omega)) := List.getElem?_eq_getElem _
    exact eval_typed hsat hcast hcall hfun hρ (hargs k _ w he hk)
      fun u h => hu u (Or.inr (mem_unifsList (i := 0) he (by simpa using h)))
  | entityArg hk _ ih =>
    simp only [TExpr.unifs, List.mem_cons] at hu
    exact ih fun u h => hu u (Or.inr (mem_unifsList (i := 0) hk (by simpa using h)))

end

/-! ## Rules -/

theorem lit_at {r : TRule F} {i j : Nat} {a : TLit F} (h : r.lits[j]? = some a) {u : Unif} (hu : u ∈ a.unifs [j, i]) :
    u ∈ (r.ctx i).unifs := ctx_unifs.2 ⟨j, a, h, hu⟩

theorem body_at {r : TRule F} {k : Nat} {a : TLit F} (h : r.body[k]? = some a) : r.lits[r.heads.length + k]? = some a := by
  simp only [TRule.lits]
  rw [List.getElem?_append_right (by simp)]
  simpa using h

theorem head_at {r : TRule F} {k : Nat} {a : TAtom F} (h : r.heads[k]? = some a) : r.lits[k]? = some (.pos a) := by
  simp only [TRule.lits]
  obtain ⟨hk, _⟩ := List.getElem?_eq_some_iff.1 h
  rw [List.getElem?_append_left (by simpa using hk)]
  simp [h]

theorem atom_arg {a : TAtom F} {l : Loc} {m : Nat} {e : TExpr F} (h : a.args[m]? = some e) :
    Unif.arg (m :: l) a.pred m ∈ a.unifs l ∧ ∀ u ∈ e.unifs (m :: l), u ∈ a.unifs l := by
  obtain ⟨hm, _⟩ := List.getElem?_eq_some_iff.1 h
  constructor
  · simp only [TAtom.unifs, List.mem_append, List.mem_map, List.mem_range]
    exact Or.inl ⟨m, hm, rfl⟩
  · intro u hu
    simp only [TAtom.unifs, List.mem_append]
    exact Or.inr (mem_unifsList (i := 0) h (by simpa using hu))

mutual
theorem ofConst_lit : ∀ (e : TExpr F) (l m : Loc) (ty : TSet), Unif.ofConst m ty ∈ e.unifs l → ∃ c : Const F, ty = c.typeSet
  | .const c, l, m, ty, h => by
    simp only [TExpr.unifs, List.mem_singleton, Unif.ofConst.injEq] at h
    exact ⟨c, h.2⟩
  | .var y, l, m, ty, h => by simp [TExpr.unifs] at h
  | .wild, l, m, ty, h => by simp [TExpr.unifs] at h
  | .bin op a b, l, m, ty, h => by
    simp only [TExpr.unifs, List.mem_cons, reduceCtorEq, false_or, List.mem_append] at h
    rcases h with h | h
    · exact ofConst_lit a _ m ty h
    · exact ofConst_lit b _ m ty h
  | .un op a, l, m, ty, h => by
    simp only [TExpr.unifs, List.mem_cons, reduceCtorEq, false_or] at h
    exact ofConst_lit a _ m ty h
  | .ite c a b, l, m, ty, h => by
    simp only [TExpr.unifs, List.mem_cons, reduceCtorEq, false_or, List.mem_append] at h
    rcases h with (h | h) | h
    · exact ofConst_lit c _ m ty h
    · exact ofConst_lit a _ m ty h
    · exact ofConst_lit b _ m ty h
  | .call f args, l, m, ty, h => by
    simp only [TExpr.unifs, List.mem_cons, reduceCtorEq, false_or] at h
    exact ofConst_litList args l 0 m ty h
  | .new f args, l, m, ty, h => by
    simp only [TExpr.unifs, List.mem_cons, reduceCtorEq, false_or] at h
    exact ofConst_litList args l 0 m ty h
theorem ofConst_litList : ∀ (es : List (TExpr F)) (l : Loc) (i : Nat) (m : Loc) (ty : TSet), Unif.ofConst m ty ∈ TExpr.unifsList l i es →
    ∃ c : Const F, ty = c.typeSet
  | [], l, i, m, ty, h => by simp [TExpr.unifsList] at h
  | e :: es, l, i, m, ty, h => by
    simp only [TExpr.unifsList, List.mem_append] at h
    rcases h with h | h
    · exact ofConst_lit e _ m ty h
    · exact ofConst_litList es l (i + 1) m ty h
end

theorem ctx_ofConst {r : TRule F} {i : Nat} {m : Loc} {ty : TSet} (h : Unif.ofConst m ty ∈ (r.ctx i).unifs) : ∃ c : Const F, ty = c.typeSet := by
  obtain ⟨j, a, _, h⟩ := ctx_unifs.1 h
  have hat : ∀ (a : TAtom F) l, Unif.ofConst m ty ∈ a.unifs l → ∃ c : Const F, ty = c.typeSet := by
    intro a l h
    simp only [TAtom.unifs, List.mem_append, List.mem_map, reduceCtorEq, and_false, exists_false, false_or] at h
    exact ofConst_litList _ _ _ _ _ h
  cases a with
  | pos a => exact hat a _ h
  | neg a => exact hat a _ h
  | constraint e => exact ofConst_lit e _ _ _ h

theorem foldOpt_mem {α β : Type} {f : β → α → Option β} {as : List α} {b b' : β} (h : foldOpt f b as = some b') :
    ∀ a ∈ as, ∃ b1 b2, f b1 a = some b2 := by
  induction as generalizing b with
  | nil => simp
  | cons a as ih =>
    simp only [foldOpt, Option.bind_eq_some_iff] at h
    obtain ⟨b1, h1, h2⟩ := h
    intro a' ha
    rcases List.mem_cons.1 ha with rfl | ha
    · exact ⟨b, b1, h1⟩
    · exact ih h2 a' ha

theorem head_notForeign {env : Env} {items : List (Item F)} {rt : RT} (h : addItems env items = some rt) {r : TRule F}
    (hr : r ∈ rulesOf items) {a : TAtom F} (ha : a ∈ r.heads) : env.preds a.pred = none := by
  simp only [rulesOf, List.mem_filterMap] at hr
  obtain ⟨it, hit, hr⟩ := hr
  cases it <;> simp only [reduceCtorEq, Option.some.injEq] at hr
  subst hr
  obtain ⟨b1, b2, h1⟩ := foldOpt_mem h _ hit
  simp only [addItem, addRule] at h1
  split at h1
  · simp at h1
  · next hn =>
    by_contra hc
    exact hn (List.any_eq_true.2 ⟨a, ha, by
      cases hp : env.preds a.pred with
      | none => exact absurd hp hc
      | some x => rfl⟩)

theorem fact_notForeign {env : Env} {items : List (Item F)} {rt : RT} (h : addItems env items = some rt) {p : String}
    {args : List (Const F × Option String)} (hf : Item.fact p args ∈ items) : env.preds p = none := by
  obtain ⟨b1, b2, h1⟩ := foldOpt_mem h _ hf
  simp only [addItem, addFact] at h1
  split at h1
  · simp at h1
  · next hn =>
    cases hp : env.preds p with
    | none => rfl
    | some x => rw [hp] at hn; simp at hn

theorem ctx_mem {items : List (Item F)} {i : Nat} {r : TRule F} (h : (rulesOf items)[i]? = some r) : r.ctx i ∈ ctxsOf (rulesOf items) := by
  simp only [ctxsOf, List.mem_map]
  exact ⟨(r, i), List.mem_zipIdx_iff_getElem?.2 h, rfl⟩

section
variable {X : Ext F} {ofInt : FloatTy → Int → F} {toF : FloatTy → F → F} {env : Env} {s : ET} {rt : RT} {items : List (Item F)}
  (hfix : Fixed env (ctxsOf (rulesOf items)) s rt) (hcast : CastsAsCoded X env) (hcall : CallsTyped X env) (hfun : FunsOk env)
include hfix hcast hcall hfun

/-- Values that a body gives to variables have the types of the variables. -/
theorem supp_typed {D : String → List (Val F) → Prop} (hD : ∀ p vs, D p vs → Typed env rt p vs) {i : Nat} {r : TRule F}
    (hr : (rulesOf items)[i]? = some r) {x : String} {v : Val F} (h : Supp X ofInt toF s D r i x v) :
    ∀ l, Unif.ofVar l x ∈ (r.ctx i).unifs → ∃ t, s l = some t ∧ v.ty = t.default := by
  have hc := ctx_mem hr
  have same : ∀ {x : String} {l l' : Loc} {v : Val F}, Unif.ofVar l x ∈ (r.ctx i).unifs → Unif.ofVar l' x ∈ (r.ctx i).unifs →
      (∃ t, s l = some t ∧ v.ty = t.default) → ∃ t, s l' = some t ∧ v.ty = t.default := by
    intro x l l' v h1 h2 ⟨t, e1, e2⟩
    exact ⟨t, by rw [← (vars_same (hfix.vars _ hc) h1 h2).1]; exact e1, e2⟩
  induction h with
  | @atom k m b x vs v hb hm hd hv =>
    intro l hl
    have hat := atom_arg (l := [r.heads.length + k, i]) hm
    have hin : ∀ u ∈ b.unifs [r.heads.length + k, i], u ∈ (r.ctx i).unifs := fun u hu => lit_at (body_at hb) hu
    have harg := hin _ hat.1
    have hvar : Unif.ofVar (m :: [r.heads.length + k, i]) x ∈ (r.ctx i).unifs := hin _ (hat.2 _ (by simp [TExpr.unifs]))
    refine same hvar hl ?_
    have ht := hD _ _ hd
    unfold Typed at ht
    split at ht
    · next tys hp =>
      obtain ⟨_, h2⟩ := hfix.sat _ hc _ harg
      obtain ⟨t, h3, h4⟩ := h2 tys hp
      refine ⟨_, h4, ?_⟩
      have : (vs.map Val.ty)[m]? = some v.ty := by simp [hv]
      rw [ht, h3] at this
      simp only [Option.some.injEq] at this
      exact this.symm
    · next hp =>
      obtain ⟨tys, t', h1, h6, h7⟩ := ht m v hv
      obtain ⟨tys', t, h3, h4, h5⟩ := hfix.arg _ hc _ _ _ harg hp
      rw [h1] at h3
      simp only [Option.some.injEq] at h3
      subst h3
      rw [h4] at h6
      simp only [Option.some.injEq] at h6
      subst h6
      exact ⟨t, h5, h7⟩
  | @eqLeft k x e ρ v hk hρ he ih =>
    intro l hl
    have hin : ∀ u ∈ (TExpr.bin .eq (.var x) e).unifs [0, r.heads.length + k, i], u ∈ (r.ctx i).unifs :=
      fun u hu => lit_at (body_at hk) hu
    simp only [TExpr.unifs, List.mem_cons, List.mem_append] at hin
    refine same (hin (.ofVar [0, 0, r.heads.length + k, i] x) (Or.inr (Or.inl (Or.inl rfl)))) hl ?_
    obtain ⟨t, e1, e2⟩ := eval_typed (hfix.sat _ hc) hcast hcall hfun (fun y w l h => ih y w h l) he fun u h => hin u (Or.inr (Or.inr h))
    obtain ⟨t', h1, h2, _⟩ := hfix.sat _ hc _ (hin _ (Or.inl rfl))
    rw [h2] at e1
    simp only [Option.some.injEq] at e1
    subst e1
    exact ⟨_, h1, e2⟩
  | @eqRight k x e ρ v hk hρ he ih =>
    intro l hl
    have hin : ∀ u ∈ (TExpr.bin .eq e (.var x)).unifs [0, r.heads.length + k, i], u ∈ (r.ctx i).unifs :=
      fun u hu => lit_at (body_at hk) hu
    simp only [TExpr.unifs, List.mem_cons, List.mem_append] at hin
    refine same (hin (.ofVar [1, 0, r.heads.length + k, i] x) (Or.inr (Or.inr (Or.inl rfl)))) hl ?_
    obtain ⟨t, e1, e2⟩ := eval_typed (hfix.sat _ hc) hcast hcall hfun (fun y w l h => ih y w h l) he fun u h => hin u (Or.inr (Or.inl h))
    obtain ⟨t', h1, h2, _⟩ := hfix.sat _ hc _ (hin _ (Or.inl rfl))
    rw [h1] at e1
    simp only [Option.some.injEq] at e1
    subst e1
    exact ⟨_, h2, e2⟩

theorem step_typed {rt0 : RT} (hitems : addItems env items = some rt0) {O : String → List (Val F) → Prop}
    (hO : ∀ p tys vs, env.preds p = some tys → O p vs → vs.map Val.ty = tys) {D : String → List (Val F) → Prop}
    (hD : ∀ p vs, D p vs → Typed env rt p vs) {p : String} {vs : List (Val F)} (h : Step X ofInt toF env s items rt O D p vs) :
    Typed env rt p vs := by
  cases h with
  | fact hf hr hl hv =>
    have := fact_notForeign hitems hf
    unfold Typed
    rw [this]
    intro k v hk
    obtain ⟨hk', _⟩ := List.getElem?_eq_some_iff.1 hk
    obtain ⟨t, h1, h2⟩ := hv k _ v (List.getElem?_eq_getElem (by omega)) hk
    exact ⟨_, t, hr, h1, toVal_ty h2⟩
  | foreign hp ho =>
    obtain ⟨tys, hp⟩ := Option.isSome_iff_exists.1 hp
    unfold Typed
    rw [hp]
    exact hO p tys vs hp ho
  | @rule i j r ρ a vs hr hj hρ hpos hcon hlen hvs =>
    have hc := ctx_mem hr
    have hpn := head_notForeign hitems (List.mem_of_getElem? hr) (List.mem_of_getElem? hj)
    have key : ∀ (k : Nat) v, vs[k]? = some v → ∃ tys t, rt a.pred = some tys ∧ tys[k]? = some t ∧ v.ty = t.default := by
      intro k v hk
      obtain ⟨hk', _⟩ := List.getElem?_eq_some_iff.1 hk
      have he : a.args[k]? = some (a.args[k]'(by omega)) := List.getElem?_eq_getElem _
      have hat := atom_arg (l := [j, i]) he
      have hin : ∀ u ∈ a.unifs [j, i], u ∈ (r.ctx i).unifs := fun u hu => lit_at (head_at hj) hu
      obtain ⟨t, e1, e2⟩ := eval_typed (hfix.sat _ hc) hcast hcall hfun
        (fun y w l h => supp_typed hfix hcast hcall hfun hD hr (hρ y w h) l) (hvs k _ v he hk) fun u h => hin u (hat.2 u h)
      obtain ⟨tys, t', h1, h2, h3⟩ := hfix.arg _ hc _ _ _ (hin _ hat.1) hpn
      rw [e1] at h3
      simp only [Option.some.injEq] at h3
      subst h3
      exact ⟨tys, t, h1, h2, e2⟩
    unfold Typed
    rw [hpn]
    exact key
end

end Scallop.Ty
