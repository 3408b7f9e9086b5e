import Verif.Spec.StaticExpr
import Mathlib.Tactic.Linarith

/-! # Lemmas about expressions of compiled programs -/

namespace Scallop.SExpr

open Scallop

variable {F : Type}

theorem outcome_bind_ok {α β : Type} {o : Outcome α} {f : α → Outcome β} {b : β} (h : o.bind f = .ok b) : ∃ a, o = .ok a ∧ f a = .ok b := by
  cases o with
  | ok a => exact ⟨a, rfl, h⟩
  | undef => cases h
  | panic => cases h

theorem asValue_ok {u : Tup (Val F)} {x : Val F} (h : asValue u = .ok x) : u = .val x := by
  cases u with
  | val v => simp [asValue] at h; rw [h]
  | tup ts => simp [asValue] at h

theorem rsInt_ok (checks : Bool) (op : BinOp) (k : IntTy) (a b : Int) (v : Val F) (he : ExactOp op (.int k a : Val F) (.int k b))
    (hop : op ≠ .and ∧ op ≠ .or) (h : evalInt op k a b = .ok v) : rsInt checks op k a b = .ok v := by
  cases op <;> simp only [evalInt, rsInt, arith] at h ⊢ <;> try exact absurd rfl hop.1
  case add =>
    have hf := (he.1 rfl).1 k k a b rfl rfl
    rw [if_pos hf]
    simp only [IntTy.fits, Bool.and_eq_true, decide_eq_true_eq] at hf
    simp only [IntTy.sat, Outcome.ok.injEq] at h
    rw [← h, if_neg (by omega), if_neg (by omega)]
  case sub =>
    have hf := he.2 rfl k k a b rfl rfl
    rw [if_pos hf]
    simp only [IntTy.fits, Bool.and_eq_true, decide_eq_true_eq] at hf
    simp only [IntTy.sat, Outcome.ok.injEq] at h
    rw [← h, if_neg (by omega), if_neg (by omega)]
  case mul =>
    split at h
    · rename_i hf; rw [if_pos hf]; cases h; rfl
    · cases h
  case div =>
    split at h
    · cases h
    · rename_i hb
      split at h
      · rename_i hf; rw [if_neg hb, if_pos hf]; cases h; rfl
      · cases h
  case mod =>
    split at h
    · cases h
    · rename_i hb
      split at h
      · rename_i hf; rw [if_neg hb, if_pos hf]; cases h; rfl
      · cases h
  all_goals first | (cases h; rfl) | cases h

theorem rsFloat_ok (X : Ext F) (R : Rust F) (op : BinOp) (k : FloatTy) (a b : F) (v : Val F) (h : evalFloat X op k a b = .ok v) :
    rsFloat X R op k a b = .ok v := by
  cases op <;> simp only [evalFloat, rsFloat] at h ⊢
  case div =>
    split at h
    · cases h
    · cases h; rfl
  all_goals first | (cases h; rfl) | cases h

theorem rsBin_ok (checks : Bool) (X : Ext F) (R : Rust F) (op : BinOp) (x y v : Val F) (he : ExactOp op x y) (hop : op ≠ .and ∧ op ≠ .or)
    (h : evalBin X .run op x y = .ok v) (hsym : ∀ s, x ≠ .symbol s) : rsBin checks X R op x y = .ok v := by
  cases x <;> cases y <;> simp only [evalBin, rsBin] at h ⊢
  case int.int k a k' b =>
    split at h
    · rename_i hk; subst hk
      rw [if_pos rfl]
      exact rsInt_ok checks op k a b v he hop h
    · cases h
  case float.float k a k' b =>
    split at h
    · rename_i hk; subst hk
      rw [if_pos rfl]
      exact rsFloat_ok X R op k a b v h
    · cases h
  case bool.bool a b =>
    cases op <;> simp_all [rsCompare]
  case char.char a b =>
    cases op <;> simp_all [rsCompare]
  case string.string a b =>
    cases op <;> simp_all [rsCompare]
    exact absurd rfl ((he.1 rfl).2 a)
  case symbol.symbol a b => exact absurd rfl (hsym a)
  case entity.entity a b =>
    cases op <;> simp_all [rsCompare]
  all_goals cases h

theorem castRust_ok (R : Rust F) (ty : Ty.VTy) (x v : Val F) (hx : x.ty.isNumeric = true) (hty : ty.isNumeric = true) (h : castInterp R ty x = .ok v) :
    castRust R ty x = .ok v := by
  cases x <;> simp [Val.ty, Ty.VTy.isNumeric, Ty.VTy.isInt, Ty.VTy.isFloat] at hx
  case int k n =>
    cases ty <;> simp [Ty.VTy.isNumeric, Ty.VTy.isInt, Ty.VTy.isFloat] at hty <;> simp only [castInterp, castRust] at h ⊢
    all_goals
      split at h
      · cases h; rfl
      · cases h
  case float k x =>
    cases ty with
    | int k' => cases k <;> simp [castInterp] at h
    | float f => cases k <;> cases f <;> simp_all [castInterp, castRust]
    | _ => simp [Ty.VTy.isNumeric, Ty.VTy.isInt, Ty.VTy.isFloat] at hty

theorem rsUn_ok (checks : Bool) (X : Ext F) (R : Rust F) (hc : CastsBy X R) (op : UnOp) (x v : Val F) (hn : NumericUn R op x) (h : evalUn X .run op x = .ok v) :
    rsUn checks X R op x = .ok v := by
  cases op with
  | neg =>
    cases x <;> simp only [evalUn, rsUn] at h ⊢
    case int k n =>
      split at h
      · rename_i hf
        simp only [Bool.and_eq_true] at hf
        rw [if_pos hf.1]
        simp only [arith]
        rw [if_pos hf.2]; cases h; rfl
      · cases h
    all_goals first | (cases h; rfl) | cases h
  | pos => exact absurd rfl hn.1
  | not =>
    cases x <;> simp only [evalUn, rsUn] at h ⊢
    all_goals first | (cases h; rfl) | cases h
  | cast name =>
    obtain ⟨h1, ty, h2, h3⟩ := hn.2 name rfl
    simp only [evalUn, hc name ty x h2] at h
    simp only [rsUn, h2]
    exact castRust_ok R ty x v h1 h3 h

theorem evalInt_symbol (op : BinOp) (k : IntTy) (a b : Int) (s : String) : (evalInt op k a b : Outcome (Val F)) ≠ .ok (.symbol s) := by
  cases op <;> simp only [evalInt] <;> (repeat' split) <;> simp

theorem evalFloat_symbol (X : Ext F) (op : BinOp) (k : FloatTy) (a b : F) (s : String) : evalFloat X op k a b ≠ .ok (.symbol s) := by
  cases op <;> simp only [evalFloat] <;> (repeat' split) <;> simp

theorem evalBin_symbol (X : Ext F) (op : BinOp) (x y : Val F) (s : String) : evalBin X .run op x y ≠ .ok (.symbol s) := by
  cases x <;> cases y <;> simp only [evalBin] <;> try (intro h; cases h; done)
  case int.int => split <;> simp [evalInt_symbol]
  case float.float => split <;> simp [evalFloat_symbol]
  all_goals cases op <;> simp

theorem castInterp_symbol (R : Rust F) (ty : Ty.VTy) (x : Val F) (hx : x.ty.isNumeric = true) (s : String) : castInterp R ty x ≠ .ok (.symbol s) := by
  cases x <;> simp [Val.ty, Ty.VTy.isNumeric, Ty.VTy.isInt, Ty.VTy.isFloat] at hx
  case int k n => cases ty <;> simp only [castInterp] <;> (repeat' split) <;> simp
  case float k x => cases k <;> cases ty <;> simp only [castInterp] <;> (repeat' split) <;> simp_all

theorem evalUn_symbol (X : Ext F) (R : Rust F) (hc : CastsBy X R) (op : UnOp) (x : Val F) (hn : NumericUn R op x) (s : String) : evalUn X .run op x ≠ .ok (.symbol s) := by
  cases op with
  | neg => cases x <;> simp only [evalUn] <;> (repeat' split) <;> simp
  | pos => exact absurd rfl hn.1
  | not => cases x <;> simp [evalUn]
  | cast name =>
    obtain ⟨h1, ty, h2, _⟩ := hn.2 name rfl
    simp only [evalUn, hc name ty x h2]
    exact castInterp_symbol R ty x h1 s

theorem eval_symbol (X : Ext F) (R : Rust F) (hc : CastsBy X R) (t : Tup (Val F)) (hs : NoSymbols t) : ∀ (e : Expr F) (s : String), Direct X R t e →
    e.eval X t ≠ .ok (.val (.symbol s))
  | .tuple es, s, _, h => by
    simp only [Expr.eval] at h
    obtain ⟨ts, _, h2⟩ := outcome_bind_ok h
    cases h2
  | .access a, s, _, h => by
    simp only [Expr.eval] at h
    split at h
    · rename_i u hu; cases h; exact hs a s hu
    · cases h
  | .const c, s, hd, h => by
    simp only [Expr.eval] at h
    cases h
    exact hd s rfl
  | .bin op a b, s, hd, h => by
    simp only [Expr.eval] at h
    obtain ⟨u, _, h⟩ := outcome_bind_ok h
    obtain ⟨w, _, h⟩ := outcome_bind_ok h
    obtain ⟨x, _, h⟩ := outcome_bind_ok h
    obtain ⟨y, _, h⟩ := outcome_bind_ok h
    obtain ⟨r, hr, h⟩ := outcome_bind_ok h
    cases h
    exact evalBin_symbol X op x y s hr
  | .un op a, s, hd, h => by
    simp only [Expr.eval] at h
    obtain ⟨u, hu, h⟩ := outcome_bind_ok h
    obtain ⟨x, hx, h⟩ := outcome_bind_ok h
    obtain ⟨r, hr, h⟩ := outcome_bind_ok h
    cases h
    rw [asValue_ok hx] at hu
    exact evalUn_symbol X R hc op x (hd.2 x hu) s hr
  | .ite c th el, s, hd, h => by
    simp only [Expr.eval] at h
    obtain ⟨u, hu, h⟩ := outcome_bind_ok h
    obtain ⟨x, hx, h⟩ := outcome_bind_ok h
    rw [asValue_ok hx] at hu
    cases x <;> simp only [Val.asBool?] at h <;> try cases h
    case bool b =>
      cases b
      · exact eval_symbol X R hc t hs el s (hd.2.2 hu) h
      · exact eval_symbol X R hc t hs th s (hd.2.1 hu) h
  | .call _ _, s, hd, _ => hd
  | .new _ _, s, hd, _ => hd

theorem evalBin_and {X : Ext F} {x y r : Val F} (h : evalBin X .run .and x y = .ok r) : ∃ p q, x = .bool p ∧ y = .bool q ∧ r = .bool (p && q) := by
  cases x <;> cases y <;> simp only [evalBin, evalInt, evalFloat] at h <;> (try split at h) <;> cases h
  exact ⟨_, _, rfl, rfl, rfl⟩

theorem evalBin_or {X : Ext F} {x y r : Val F} (h : evalBin X .run .or x y = .ok r) : ∃ p q, x = .bool p ∧ y = .bool q ∧ r = .bool (p || q) := by
  cases x <;> cases y <;> simp only [evalBin, evalInt, evalFloat] at h <;> (try split at h) <;> cases h
  exact ⟨_, _, rfl, rfl, rfl⟩

mutual
theorem rsEval_ok (checks : Bool) (X : Ext F) (R : Rust F) (hc : CastsBy X R) (t : Tup (Val F)) (hs : NoSymbols t) : ∀ (e : Expr F) (v : Tup (Val F)),
    Direct X R t e → e.eval X t = .ok v → rsEval checks X R e t = .ok v
  | .tuple es, v, hd, h => by
    simp only [Expr.eval] at h
    obtain ⟨ts, h1, h2⟩ := outcome_bind_ok h
    cases h2
    simp only [rsEval, rsEvalList_ok checks X R hc t hs es ts hd h1, Rs.bind]
  | .access a, v, _, h => by
    simp only [Expr.eval] at h
    simp only [rsEval]
    split at h
    · rename_i u hu; cases h; rw [hu]
    · cases h
  | .const c, v, hd, h => by
    simp only [Expr.eval] at h
    cases h
    simp only [rsEval]
    cases c <;> first | rfl | exact absurd rfl (hd _)
  | .bin op a b, v, hd, h => by
    simp only [Expr.eval] at h
    obtain ⟨u, hu, h⟩ := outcome_bind_ok h
    obtain ⟨w, hw, h⟩ := outcome_bind_ok h
    obtain ⟨x, hx, h⟩ := outcome_bind_ok h
    obtain ⟨y, hy, h⟩ := outcome_bind_ok h
    obtain ⟨r, hr, h⟩ := outcome_bind_ok h
    cases h
    have hx' := asValue_ok hx
    have hy' := asValue_ok hy
    subst hx' hy'
    have ha := rsEval_ok checks X R hc t hs a _ hd.1 hu
    have hb := rsEval_ok checks X R hc t hs b _ hd.2.1 hw
    have he := hd.2.2 x y hu hw
    have hsym : ∀ s, x ≠ .symbol s := fun s hxs => eval_symbol X R hc t hs a s hd.1 (by rw [hu, hxs])
    by_cases h1 : op = .and
    · subst h1
      obtain ⟨p, q, rfl, rfl, rfl⟩ := evalBin_and hr
      simp only [rsEval, ha, Rs.bind]
      cases p
      · simp [rsCond, Rs.bind]
      · simp [rsCond, Rs.bind, hb]
    · by_cases h2 : op = .or
      · subst h2
        obtain ⟨p, q, rfl, rfl, rfl⟩ := evalBin_or hr
        simp only [rsEval, ha, Rs.bind]
        cases p
        · simp [rsCond, Rs.bind, hb]
        · simp [rsCond, Rs.bind]
      · have hr' := rsBin_ok checks X R op x y r he ⟨h1, h2⟩ hr hsym
        cases op <;> first | exact absurd rfl h1 | exact absurd rfl h2 | simp only [rsEval, ha, hb, Rs.bind, rsValue, hr']
  | .un op a, v, hd, h => by
    simp only [Expr.eval] at h
    obtain ⟨u, hu, h⟩ := outcome_bind_ok h
    obtain ⟨x, hx, h⟩ := outcome_bind_ok h
    obtain ⟨r, hr, h⟩ := outcome_bind_ok h
    cases h
    have hx' := asValue_ok hx
    subst hx'
    simp only [rsEval, rsEval_ok checks X R hc t hs a _ hd.1 hu, Rs.bind, rsValue, rsUn_ok checks X R hc op x r (hd.2 x hu) hr]
  | .ite c th el, v, hd, h => by
    simp only [Expr.eval] at h
    obtain ⟨u, hu, h⟩ := outcome_bind_ok h
    obtain ⟨x, hx, h⟩ := outcome_bind_ok h
    have hx' := asValue_ok hx
    subst hx'
    simp only [rsEval, rsEval_ok checks X R hc t hs c _ hd.1 hu, Rs.bind]
    cases x with
    | bool b =>
      cases b
      · exact rsEval_ok checks X R hc t hs el v (hd.2.2 hu) h
      · exact rsEval_ok checks X R hc t hs th v (hd.2.1 hu) h
    | _ => cases h
  | .call _ _, _, hd, _ => absurd hd id
  | .new _ _, _, hd, _ => absurd hd id
theorem rsEvalList_ok (checks : Bool) (X : Ext F) (R : Rust F) (hc : CastsBy X R) (t : Tup (Val F)) (hs : NoSymbols t) : ∀ (es : List (Expr F)) (vs : List (Tup (Val F))),
    DirectList X R t es → Expr.evalList X es t = .ok vs → rsEvalList checks X R es t = .ok vs
  | [], vs, _, h => by simp only [Expr.evalList] at h; cases h; rfl
  | e :: es, vs, hd, h => by
    simp only [Expr.evalList] at h
    obtain ⟨u, hu, h⟩ := outcome_bind_ok h
    obtain ⟨us, hus, h⟩ := outcome_bind_ok h
    cases h
    simp only [rsEvalList, rsEval_ok checks X R hc t hs e u hd.1 hu, rsEvalList_ok checks X R hc t hs es us hd.2 hus, Rs.bind]
end

/-! ### Overflow -/

theorem hi_eq (k : IntTy) : k.hi = k.lo + 2 ^ k.bits - 1 := by cases k <;> decide +kernel

theorem pow_pos' (k : IntTy) : (0 : Int) < 2 ^ k.bits := by cases k <;> decide +kernel

/-- Wrapping and rounding to the ends of a type differ whenever they are not the identity. -/
theorem wrap_ne_sat (k : IntTy) (n : Int) (h1 : k.lo - 2 ^ k.bits < n) (h2 : n < k.hi + 2 ^ k.bits) (hn : ¬ (k.fits n = true)) : wrap k n ≠ k.sat n := by
  simp only [IntTy.fits, Bool.and_eq_true, decide_eq_true_eq, not_and, not_le] at hn
  have hh := hi_eq k
  have hp := pow_pos' k
  simp only [wrap, IntTy.sat]
  generalize (2 : Int) ^ k.bits = p at *
  by_cases hlt : n < k.lo
  · rw [if_pos hlt]
    intro h
    have h4 : (n - k.lo + p) % p = (n - k.lo) % p := Int.add_emod_right _ _
    have h5 : (n - k.lo + p) % p = n - k.lo + p := Int.emod_eq_of_lt (by omega) (by omega)
    omega
  · have hgt := hn (by omega)
    rw [if_neg hlt, if_pos hgt]
    intro h
    have h4 : (n - k.lo - p) % p = (n - k.lo) % p := Int.sub_emod_right _ _
    have h5 : (n - k.lo - p) % p = n - k.lo - p := Int.emod_eq_of_lt (by omega) (by omega)
    omega

theorem sat_of_fits (k : IntTy) (n : Int) (h : k.fits n = true) : k.sat n = n := by
  simp only [IntTy.fits, Bool.and_eq_true, decide_eq_true_eq] at h
  simp only [IntTy.sat]
  rw [if_neg (by omega), if_neg (by omega)]

theorem arith_iff (checks : Bool) (k : IntTy) (n : Int) (h1 : k.lo - 2 ^ k.bits < n) (h2 : n < k.hi + 2 ^ k.bits) :
    (arith checks k n : Rs (Val F)) = .ok (.int k (k.sat n)) ↔ k.fits n = true := by
  simp only [arith]
  split
  · rename_i hf; simp [hf, sat_of_fits k n hf]
  · rename_i hf
    have := wrap_ne_sat k n h1 h2 hf
    cases checks
    · simp [hf, this]
    · simp [hf]

theorem lo_bounds (k : IntTy) : k.lo ≤ 0 ∧ 0 ≤ k.hi ∧ - 2 ^ k.bits < k.lo := by cases k <;> decide +kernel

theorem wrap_of_fits (k : IntTy) (n : Int) (h : k.fits n = true) : wrap k n = n := by
  simp only [IntTy.fits, Bool.and_eq_true, decide_eq_true_eq] at h
  have := hi_eq k
  simp only [wrap]
  rw [Int.emod_eq_of_lt (by omega) (by omega)]
  omega

theorem small_fits (k : IntTy) (n : Int) (h0 : 0 ≤ n) (h : n ≤ 127) : k.fits n = true := by
  have h1 : k.lo ≤ 0 := (lo_bounds k).1
  have h2 : (127 : Int) ≤ k.hi := by cases k <;> decide +kernel
  simp only [IntTy.fits, Bool.and_eq_true, decide_eq_true_eq]
  omega

theorem digit_spec (c : Char) (d : Nat) (h : digit c = some d) : d ≤ 9 ∧ c.toNat = d + 48 := by
  simp only [digit] at h
  split at h
  · rename_i hc
    have h1 : 48 ≤ c.toNat := hc.1
    have h2 : c.toNat ≤ 57 := hc.2
    cases h
    omega
  · cases h

end Scallop.SExpr
