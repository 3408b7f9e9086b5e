import Verif.Proof.ForeignCall
import Mathlib.Data.List.TakeWhile

/-!
# C89, C90: the standard functions

`stdCall L f vs` is what a call of `$f` with the values `vs` does: return a value, drop the tuple (`undef`) or panic. `stdFun f` is the
declared type of `$f`, by which the compiler accepts calls.
-/

namespace Scallop.Foreign

open Ty

variable {F : Type} (L : Lib F)

private theorem arity_one {t : ArgTy} {g : List TSet} {r : RetTy} {vs : List (Val F)}
    (h : (FunTy.mk g [t] [] none r).statics.length ≤ vs.length ∧ ((FunTy.mk g [t] [] none r).variadic = none →
      vs.length ≤ (FunTy.mk g [t] [] none r).statics.length + (FunTy.mk g [t] [] none r).optionals.length)) : ∃ v, vs = [v] := by
  match vs, h with
  | [], h => simp at h
  | [v], _ => exact ⟨v, rfl⟩
  | _ :: _ :: _, h => simp at h

private theorem arity_two {t u : ArgTy} {g : List TSet} {r : RetTy} {vs : List (Val F)}
    (h : (FunTy.mk g [t, u] [] none r).statics.length ≤ vs.length ∧ ((FunTy.mk g [t, u] [] none r).variadic = none →
      vs.length ≤ (FunTy.mk g [t, u] [] none r).statics.length + (FunTy.mk g [t, u] [] none r).optionals.length)) : ∃ v w, vs = [v, w] := by
  match vs, h with
  | [], h => simp at h
  | [_], h => simp at h
  | [v, w], _ => exact ⟨v, w, rfl⟩
  | _ :: _ :: _ :: _, h => simp at h

private theorem arity_three {t u x : ArgTy} {g : List TSet} {r : RetTy} {vs : List (Val F)}
    (h : (FunTy.mk g [t, u, x] [] none r).statics.length ≤ vs.length ∧ ((FunTy.mk g [t, u, x] [] none r).variadic = none →
      vs.length ≤ (FunTy.mk g [t, u, x] [] none r).statics.length + (FunTy.mk g [t, u, x] [] none r).optionals.length)) : ∃ v w y, vs = [v, w, y] := by
  match vs, h with
  | [], h => simp at h
  | [_], h => simp at h
  | [_, _], h => simp at h
  | [v, w, y], _ => exact ⟨v, w, y, rfl⟩
  | _ :: _ :: _ :: _ :: _, h => simp at h

private theorem ret_first {g : List TSet} {o : List ArgTy} {vr : Option ArgTy} {sts : List ArgTy} {v w : Val F} {vs : List (Val F)}
    (h : v.ty = w.ty) : RetFits ⟨g, .generic 0 :: sts, o, vr, .generic 0⟩ (w :: vs) v := by
  refine ⟨fun t h => by simp at h, fun g hg => ?_⟩
  simp only [RetTy.generic.injEq] at hg
  subst hg
  exact ⟨0, w, by simp [FunTy.argTy], rfl, h⟩

private theorem ret_base {g : List TSet} {sts o : List ArgTy} {vr : Option ArgTy} {t : VTy} {v : Val F} {vs : List (Val F)}
    (h : v.ty = t) : RetFits ⟨g, sts, o, vr, .base t⟩ vs v :=
  ⟨fun t' h' => by simp only [RetTy.base.injEq] at h'; rw [← h', h], fun g hg => by simp at hg⟩

private theorem ret_pick {ltI : Int → Int → Bool} {ltF : F → F → Bool} {vs : List (Val F)} {v : Val F} (h : callPick ltI ltF vs = .ok v) :
    RetFits ⟨[.numeric], [], [], some (.generic 0), .generic 0⟩ vs v := by
  refine ⟨fun t h => by simp at h, fun g hg => ?_⟩
  simp only [RetTy.generic.injEq] at hg
  subst hg
  cases vs with
  | nil => simp [callPick] at h
  | cons w vs =>
    refine ⟨0, w, by simp [FunTy.argTy], rfl, ?_⟩
    cases w <;> simp only [callPick, reduceCtorEq] at h
    · cases hp : pick (asInt ‹IntTy›) ltI (Val.int ‹_› ‹_› :: vs) <;> rw [hp] at h <;> simp [ofOpt] at h
      rw [← h]; rfl
    · cases hp : pick (asFloat ‹FloatTy›) ltF (Val.float ‹_› ‹_› :: vs) <;> rw [hp] at h <;> simp [ofOpt] at h
      rw [← h]; rfl

private theorem mapOk {f : List Char → List Char} {vs : List (Val F)} {v : Val F} (h : callMap f vs = .ok v) : v.ty = .string := by
  unfold callMap at h
  split at h <;> simp only [Outcome.ok.injEq, reduceCtorEq] at h
  rw [← h]; rfl

/-! ## C89: values of the declared types -/

/-- Every function can be called by its name: no two have the same (`register(…).unwrap()` does not panic). -/
theorem c89_registered (f : Fn) : lookup f.name = some f := by
  cases f <;> first | decide | (rename_i g; cases g <;> decide)

private theorem call_eq (f : Fn) (vs : List (Val F)) : stdCall L f.name vs = f.call L vs := by
  simp only [stdCall, c89_registered]

/-- Every standard function but `$sign` that is called with arguments of its declared types and returns a value returns one of its declared
type: for a generic type, the type of the arguments. -/
theorem c89_return_type_partial {f : Fn} {vs : List (Val F)} {v : Val F} (hs : f ≠ .sign) (hfit : ArgsFit f.ty vs)
    (hv : stdCall L f.name vs = .ok v) : RetFits f.ty vs v := by
  simp only [stdCall, c89_registered] at hv
  have un : ∀ t, f.ty = genericUn t → ∃ w, vs = [w] ∧ t.contains w.ty = true := by
    intro t ht
    rw [ht] at hfit
    obtain ⟨w, rfl⟩ := arity_one hfit.arity
    exact ⟨w, rfl, fit_generic hfit⟩
  cases f with
  | sign => exact absurd rfl hs
  | abs =>
    obtain ⟨w, rfl, hw⟩ := un _ rfl
    refine ret_first ?_
    rcases numeric_cases hw with ⟨k, n, rfl⟩ | ⟨k, x, rfl⟩
    · simp only [Fn.call, callAbs] at hv
      repeat' split at hv
      all_goals simp at hv
      all_goals (subst hv; rfl)
    · simp only [Fn.call, callAbs, Outcome.ok.injEq] at hv
      subst hv; rfl
  | floor | ceil =>
    obtain ⟨w, rfl, hw⟩ := un _ rfl
    refine ret_first ?_
    rcases numeric_cases hw with ⟨k, n, rfl⟩ | ⟨k, x, rfl⟩ <;>
    · simp only [Fn.call, callRound, Outcome.ok.injEq] at hv
      subst hv; rfl
  | un g =>
    obtain ⟨w, rfl, hw⟩ := un _ rfl
    refine ret_first ?_
    obtain ⟨k, x, rfl⟩ := float_cases hw
    simp only [Fn.call, callUn] at hv
    cases hu : L.un g k x <;> rw [hu] at hv <;> simp [ofOpt] at hv
    subst hv; rfl
  | pow =>
    obtain ⟨a, b, rfl⟩ := arity_two hfit.arity
    refine ret_first ?_
    simp only [Fn.call] at hv
    unfold callPow at hv
    split at hv
    · next hab =>
      simp only [List.cons.injEq] at hab
      obtain ⟨rfl, -⟩ := hab
      split at hv <;> simp at hv
      subst hv; rfl
    · simp at hv
  | bin g =>
    obtain ⟨a, b, rfl⟩ := arity_two hfit.arity
    refine ret_first ?_
    simp only [Fn.call] at hv
    unfold callBin at hv
    split at hv
    · next hab =>
      simp only [List.cons.injEq] at hab
      obtain ⟨rfl, -⟩ := hab
      split at hv <;> simp at hv
      subst hv; rfl
    · simp at hv
  | max | min => exact ret_pick hv
  | concat =>
    refine ret_base ?_
    have hss : ∀ w ∈ vs, w.ty = .string := by
      intro w hw
      obtain ⟨k, hk⟩ := List.mem_iff_getElem?.1 hw
      have := hfit.set k w (.base .string) hk (by simp [FunTy.argTy, Fn.ty])
      simp only [TSet.contains, beq_iff_eq, decide_eq_true_eq] at this
      first | exact this | exact this.symm
    obtain ⟨ss, rfl⟩ := string_args hss
    simp only [Fn.call] at hv
    rw [callConcat_eq ss rfl] at hv
    simp only [Outcome.ok.injEq] at hv
    subst hv; rfl
  | length =>
    refine ret_base ?_
    simp only [Fn.call] at hv
    unfold callLength at hv
    split at hv <;> simp at hv
    subst hv; rfl
  | charAt =>
    refine ret_base ?_
    simp only [Fn.call] at hv
    unfold callCharAt at hv
    split at hv
    · next s i _ =>
      cases hu : s.toList[i.toNat]? <;> rw [hu] at hv <;> simp [ofOpt] at hv
      subst hv; rfl
    · simp at hv
    · simp at hv
  | substring =>
    refine ret_base ?_
    simp only [Fn.call] at hv
    unfold callSubstring at hv
    repeat' split at hv
    all_goals simp at hv
    all_goals (subst hv; rfl)
  | format =>
    refine ret_base ?_
    simp only [Fn.call] at hv
    unfold callFormat at hv
    repeat' split at hv
    all_goals simp at hv
    all_goals (subst hv; rfl)
  | upper | lower | trim => exact ret_base (mapOk hv)
  | indexOf =>
    refine ret_base ?_
    simp only [Fn.call] at hv
    unfold callIndexOf at hv
    split at hv
    · next s p =>
      cases hu : findFrom p.toList s.toList 0 <;> rw [hu] at hv <;> simp [ofOpt] at hv
      subst hv; rfl
    · simp at hv
  | replace =>
    refine ret_base ?_
    simp only [Fn.call] at hv
    unfold callReplace at hv
    split at hv <;> simp at hv
    subst hv; rfl
  | hash =>
    refine ret_base ?_
    simp only [Fn.call, Outcome.ok.injEq] at hv
    subst hv; rfl

/-- So the standard functions without `$sign` meet what C87 asks of foreign functions. -/
theorem c89_calls_typed_partial {X : Ext F} {env : Env} (hX : X.call = stdCall L)
    (henv : ∀ n ft, env.funs n = some ft → ∃ f : Fn, f ≠ .sign ∧ f.name = n ∧ f.ty = ft) : CallsTyped X env ∧ FunsOk env := by
  refine ⟨fun n ft vs v hn hfit hv => ?_, fun n ft hn => ?_⟩
  · obtain ⟨f, hs, rfl, rfl⟩ := henv n ft hn
    rw [hX] at hv
    exact c89_return_type_partial L hs hfit hv
  · obtain ⟨f, -, rfl, rfl⟩ := henv n ft hn
    constructor
    · intro k g hk
      cases f <;> simp only [Fn.ty, genericUn, simple, FunTy.argTy] at hk ⊢ <;> rcases k with _ | _ | _ | k <;>
        simp at hk <;> simp [← hk]
    · intro g hg
      cases f <;> simp [Fn.ty, genericUn, simple] at hg ⊢ <;> omega

/-- `$sign` of a floating point number is a 32-bit integer, although its declared return type is that of its argument. -/
theorem c89_return_type_false (k : FloatTy) (x : F) :
    ArgsFit Fn.sign.ty [.float k x] ∧ ∃ v, stdCall L "sign" [.float k x] = .ok v ∧ ¬ RetFits Fn.sign.ty [.float k x] v := by
  refine ⟨⟨(by simp [Fn.ty, genericUn]), fun j v t hj ht => ?_, fun i j v w g hi hj _ _ => ?_, fun j v g fam hj hg hf => ?_⟩, _, rfl, fun h => ?_⟩
  · simp [Fn.ty, genericUn, FunTy.argTy] at ht
    cases j with
    | zero => simp at ht
    | succ j => simp at hj
  · have e : ∀ {n : Nat} {u : Val F}, [Val.float k x][n]? = some u → u = .float k x := fun {n u} h => by
      cases n with
      | zero => simpa using h.symm
      | succ n => simp at h
    rw [e hi, e hj]
  · cases j with
    | succ j => simp at hj
    | zero =>
      simp only [List.getElem?_cons_zero, Option.some.injEq] at hj
      subst hj
      simp only [Fn.ty, genericUn, FunTy.argTy, List.length_singleton, Nat.lt_one_iff, if_true, List.getElem?_cons_zero, Option.some.injEq,
        ArgTy.generic.injEq] at hg
      subst hg
      simp only [Fn.ty, genericUn, List.getElem?_cons_zero, Option.some.injEq] at hf
      subst hf
      cases k <;> rfl
  · obtain ⟨j, w, _, hw, hty⟩ := h.2 0 rfl
    cases j with
    | zero => simp at hw; subst hw; simp [Val.ty] at hty
    | succ j => simp at hw

/-- A call with arguments of the declared types does not panic, except for the functions listed. -/
theorem c89_no_panic_partial {f : Fn} {vs : List (Val F)} (hf : f ∉ [Fn.abs, .pow, .max, .min, .substring, .format])
    (hfit : ArgsFit f.ty vs) : stdCall L f.name vs ≠ .panic := by
  simp only [stdCall, c89_registered]
  have un : ∀ t, f.ty = genericUn t → ∃ w, vs = [w] ∧ t.contains w.ty = true := by
    intro t ht
    rw [ht] at hfit
    obtain ⟨w, rfl⟩ := arity_one hfit.arity
    exact ⟨w, rfl, fit_generic hfit⟩
  have st : ∀ (k : Nat) w, vs[k]? = some w → f.ty.argTy k = some (.set (.base .string)) → ∃ s, w = .string s := by
    intro k w hk ht
    have := hfit.set k w _ hk ht
    cases w <;> simp [TSet.contains, Val.ty] at this
    exact ⟨_, rfl⟩
  cases f with
  | abs | pow | max | min | substring | format => simp at hf
  | sign | floor | ceil =>
    obtain ⟨w, rfl, hw⟩ := un _ rfl
    rcases numeric_cases hw with ⟨k, n, rfl⟩ | ⟨k, x, rfl⟩ <;> simp [Fn.call, callSign, callRound]
  | un g =>
    obtain ⟨w, rfl, hw⟩ := un _ rfl
    obtain ⟨k, x, rfl⟩ := float_cases hw
    simp only [Fn.call, callUn]
    cases L.un g k x <;> simp [ofOpt]
  | bin g =>
    obtain ⟨a, b, rfl⟩ := arity_two hfit.arity
    obtain ⟨k, x, rfl⟩ := float_cases (fit_generic hfit)
    have h := hfit.same 0 1 _ _ 0 rfl rfl rfl rfl
    cases b <;> simp [Val.ty] at h
    subst h
    simp [Fn.call, callBin]
  | concat =>
    have hss : ∀ w ∈ vs, w.ty = .string := by
      intro w hw
      obtain ⟨k, hk⟩ := List.mem_iff_getElem?.1 hw
      obtain ⟨s, rfl⟩ := st k w hk (by simp [FunTy.argTy, Fn.ty])
      rfl
    obtain ⟨ss, rfl⟩ := string_args hss
    simp [Fn.call, callConcat_eq ss rfl]
  | length =>
    obtain ⟨a, rfl⟩ := arity_one hfit.arity
    obtain ⟨s, rfl⟩ := st 0 a rfl rfl
    simp [Fn.call, callLength]
  | charAt =>
    obtain ⟨a, b, rfl⟩ := arity_two hfit.arity
    simp only [Fn.call]
    unfold callCharAt
    split
    · next s i _ _ => cases s.toList[i.toNat]? <;> simp [ofOpt]
    · simp
    · next h1 h2 => exact absurd rfl (h2 _ _ _)
  | upper | lower | trim =>
    obtain ⟨a, rfl⟩ := arity_one hfit.arity
    obtain ⟨s, rfl⟩ := st 0 a rfl rfl
    simp [Fn.call, callMap]
  | indexOf =>
    obtain ⟨a, b, rfl⟩ := arity_two hfit.arity
    obtain ⟨s, rfl⟩ := st 0 a rfl rfl
    obtain ⟨p, rfl⟩ := st 1 b rfl rfl
    simp only [Fn.call, callIndexOf]
    cases findFrom p.toList s.toList 0 <;> simp [ofOpt]
  | replace =>
    obtain ⟨a, b, c, rfl⟩ := arity_three hfit.arity
    obtain ⟨s, rfl⟩ := st 0 a rfl rfl
    obtain ⟨p, rfl⟩ := st 1 b rfl rfl
    obtain ⟨r, rfl⟩ := st 2 c rfl rfl
    simp [Fn.call, callReplace]
  | hash => simp [Fn.call]

private theorem fits_max_nil : ArgsFit Fn.max.ty ([] : List (Val F)) :=
  ⟨(by simp [Fn.ty]), by simp, by simp, by simp⟩

/-- The functions listed do panic on arguments of their declared types: `$max()`, which the compiler accepts, the absolute value of the
least integer, a power that overflows, a substring beyond the end, a format string without a place for its argument. -/
theorem c89_no_panic_false :
    ArgsFit Fn.max.ty ([] : List (Val F)) ∧ stdCall L "max" [] = .panic ∧
    stdCall L "abs" [.int .i8 (-128)] = .panic ∧
    stdCall L "pow" [.int .i8 2, .int .u32 7] = .panic ∧
    stdCall L "substring" [.string "abc", .int .usize 2, .int .usize 4] = .panic ∧
    stdCall L "substring" [.string "é", .int .usize 1] = .panic ∧
    stdCall L "format" [.string "x", .bool true] = .panic := by
  refine ⟨fits_max_nil, call_eq L .max _, call_eq L .abs _, ?_, ?_, ?_, ?_⟩
  · refine (call_eq L .pow _).trans ?_
    simp only [Fn.call]
    simp only [callPow]
    rw [if_neg (by decide)]
  · refine (call_eq L .substring _).trans ?_
    simp only [Fn.call]
    simp only [callSubstring]
    have : slice "abc".toList (2 : Int).toNat (4 : Int).toNat = none := by decide
    rw [this]
  · refine (call_eq L .substring _).trans ?_
    simp only [Fn.call]
    simp only [callSubstring]
    have : sliceFrom "é".toList (1 : Int).toNat = none := by decide
    rw [this]
  · refine (call_eq L .format _).trans ?_
    simp only [Fn.call]
    simp only [callFormat]
    have : split "x".toList ['{', '}'] = [['x']] := by decide
    rw [this]
    simp

/-- `$abs` of an integer is its absolute value; it panics for the least value of a signed type, whose absolute value has no
representation. -/
theorem c89_abs {k : IntTy} {n : Int} (h : k.fits n = true) :
    stdCall L "abs" [.int k n] = if k.signed ∧ n = k.lo then .panic else .ok (.int k n.natAbs) := by
  refine (call_eq L .abs _).trans ?_
  simp only [Fn.call]
  simp only [callAbs]
  simp only [IntTy.fits, Bool.and_eq_true, decide_eq_true_eq] at h
  by_cases hs : k.signed = true
  · simp only [hs, if_true, true_and]
    have hlo : k.lo = -(k.hi + 1) := by cases k <;> simp [IntTy.signed] at hs <;> rfl
    have hhi : 0 ≤ k.hi := by cases k <;> decide
    by_cases hn : n = k.lo
    · rw [if_pos hn, if_neg]
      simp only [IntTy.fits, Bool.and_eq_true, decide_eq_true_eq, not_and, not_le]
      intro _; omega
    · rw [if_neg hn, if_pos]
      · simp only [IntTy.fits, Bool.and_eq_true, decide_eq_true_eq]
        omega
  · simp only [hs, Bool.false_eq_true, if_false, false_and]
    have hlo : k.lo = 0 := by cases k <;> simp [IntTy.signed] at hs <;> rfl
    rw [Int.natAbs_of_nonneg (by omega)]

/-- `$sign` of a signed integer is its sign. -/
theorem c89_sign_partial {k : IntTy} (n : Int) (h : k.signed = true) : stdCall L "sign" [.int k n] = .ok (.int k n.sign) := by
  refine (call_eq L .sign _).trans ?_
  simp only [Fn.call]
  simp [callSign, h]

/-- `$sign` of a floating point number is `-1` below zero, `1` above zero and `0` for zero and NaN, which compare neither way. -/
theorem c89_sign_float {k : FloatTy} (x : F) :
    (L.flt x L.zero = true → stdCall L "sign" [.float k x] = .ok (.int .i32 (-1))) ∧
    (L.flt x L.zero = false → L.flt L.zero x = true → stdCall L "sign" [.float k x] = .ok (.int .i32 1)) ∧
    (L.flt x L.zero = false → L.flt L.zero x = false → stdCall L "sign" [.float k x] = .ok (.int .i32 0)) := by
  refine ⟨fun h => (call_eq L .sign _).trans ?_, fun h h' => (call_eq L .sign _).trans ?_, fun h h' => (call_eq L .sign _).trans ?_⟩
  · simp [Fn.call, callSign, h]
  · simp [Fn.call, callSign, h, h']
  · simp [Fn.call, callSign, h, h']

/-- `$floor` and `$ceil` leave integers as they are, and round floating point numbers as the library does. -/
theorem c89_round {k : IntTy} {j : FloatTy} (n : Int) (x : F) :
    stdCall L "floor" [.int k n] = .ok (.int k n) ∧ stdCall L "ceil" [.int k n] = .ok (.int k n) ∧
    stdCall L "floor" [.float j x] = .ok (.float j (L.floor j x)) ∧ stdCall L "ceil" [.float j x] = .ok (.float j (L.ceil j x)) :=
  ⟨(call_eq L .floor _).trans rfl, (call_eq L .ceil _).trans rfl, (call_eq L .floor _).trans rfl, (call_eq L .ceil _).trans rfl⟩

/-- `$sign` of the unsigned zero is one. -/
theorem c89_sign_false {k : IntTy} (h : k.signed = false) : stdCall L "sign" [.int k 0] = .ok (.int k 1) := by
  refine (call_eq L .sign _).trans ?_
  simp only [Fn.call]
  simp [callSign, h]

/-- `$pow` is the power of the integers or panics: never another number. -/
theorem c89_pow {k : IntTy} {x y : Int} :
    stdCall L "pow" [.int k x, .int .u32 y] = if k.lo ≤ x ^ y.toNat ∧ x ^ y.toNat ≤ k.hi then .ok (.int k (x ^ y.toNat)) else .panic := by
  refine (call_eq L .pow _).trans ?_
  simp only [Fn.call]
  simp only [callPow, IntTy.fits, Bool.and_eq_true, decide_eq_true_eq]

private theorem asInts {k : IntTy} {vs : List (Val F)} {ns : List Int} (h : vs = ns.map (.int k)) : ∀ v ∈ vs, ∃ x, asInt k v = some x := by
  subst h
  intro v hv
  obtain ⟨n, _, rfl⟩ := List.mem_map.1 hv
  exact ⟨n, by simp [asInt]⟩

/-- `$max` of integers is the greatest of them. -/
theorem c89_max (k : IntTy) {ns : List Int} (h : ns ≠ []) :
    ∃ m ∈ ns, stdCall L "max" (ns.map (.int k)) = .ok (.int k m) ∧ ∀ n ∈ ns, n ≤ m := by
  obtain ⟨m, hm⟩ := pick_total (better := fun a b => decide (b < a)) (asInts (F := F) (k := k) (ns := ns) rfl) (by simpa using h)
  obtain ⟨v, hv, hvm⟩ := pick_mem hm
  obtain ⟨n, hn, rfl⟩ := List.mem_map.1 hv
  simp only [asInt, if_true, Option.some.injEq] at hvm
  subst hvm
  refine ⟨n, hn, ?_, fun i hi => ?_⟩
  · refine (call_eq L .max _).trans ?_
    simp only [Fn.call]
    obtain ⟨x, xs, rfl⟩ := List.exists_cons_of_ne_nil h
    simp only [List.map_cons] at hm ⊢
    simp only [callPick, hm]
    rfl
  · have := pick_best (fun a => by simp) (fun a b h => by simp only [decide_eq_true_eq, decide_eq_false_iff_not] at *; omega)
      (fun a b c h1 h2 => by simp only [decide_eq_false_iff_not] at *; omega) hm (.int k i) (List.mem_map.2 ⟨i, hi, rfl⟩) i (by simp [asInt])
    simp only [decide_eq_false_iff_not] at this
    omega

/-- `$min` of integers is the least of them. -/
theorem c89_min (k : IntTy) {ns : List Int} (h : ns ≠ []) :
    ∃ m ∈ ns, stdCall L "min" (ns.map (.int k)) = .ok (.int k m) ∧ ∀ n ∈ ns, m ≤ n := by
  obtain ⟨m, hm⟩ := pick_total (better := fun a b => decide (a < b)) (asInts (F := F) (k := k) (ns := ns) rfl) (by simpa using h)
  obtain ⟨v, hv, hvm⟩ := pick_mem hm
  obtain ⟨n, hn, rfl⟩ := List.mem_map.1 hv
  simp only [asInt, if_true, Option.some.injEq] at hvm
  subst hvm
  refine ⟨n, hn, ?_, fun i hi => ?_⟩
  · refine (call_eq L .min _).trans ?_
    simp only [Fn.call]
    obtain ⟨x, xs, rfl⟩ := List.exists_cons_of_ne_nil h
    simp only [List.map_cons] at hm ⊢
    simp only [callPick, hm]
    rfl
  · have := pick_best (fun a => by simp) (fun a b h => by simp only [decide_eq_true_eq, decide_eq_false_iff_not] at *; omega)
      (fun a b c h1 h2 => by simp only [decide_eq_false_iff_not] at *; omega) hm (.int k i) (List.mem_map.2 ⟨i, hi, rfl⟩) i (by simp [asInt])
    simp only [decide_eq_false_iff_not] at this
    omega

/-- `$max` of floating point numbers is one of them, and none is greater, if `<` orders them (no NaN). -/
theorem c89_max_float_partial (k : FloatTy) {xs : List F} (h : xs ≠ []) (irr : ∀ a, L.flt a a = false)
    (asym : ∀ a b, L.flt a b = true → L.flt b a = false)
    (tr : ∀ a b c, L.flt a b = false → L.flt b c = false → L.flt a c = false) :
    ∃ m ∈ xs, stdCall L "max" (xs.map (.float k)) = .ok (.float k m) ∧ ∀ x ∈ xs, L.flt m x = false := by
  have conv : ∀ v ∈ xs.map (Val.float k), ∃ x, asFloat k v = some x := by
    intro v hv
    obtain ⟨x, _, rfl⟩ := List.mem_map.1 hv
    exact ⟨x, by simp [asFloat]⟩
  obtain ⟨m, hm⟩ := pick_total (better := fun a b => L.flt b a) conv (by simpa using h)
  obtain ⟨v, hv, hvm⟩ := pick_mem hm
  obtain ⟨n, hn, rfl⟩ := List.mem_map.1 hv
  simp only [asFloat, if_true, Option.some.injEq] at hvm
  subst hvm
  refine ⟨n, hn, ?_, fun i hi => ?_⟩
  · refine (call_eq L .max _).trans ?_
    simp only [Fn.call]
    obtain ⟨x, xs, rfl⟩ := List.exists_cons_of_ne_nil h
    simp only [List.map_cons] at hm ⊢
    simp only [callPick, hm]
    rfl
  · exact pick_best (better := fun a b => L.flt b a) (conv := asFloat k) irr (fun a b h => asym _ _ h) (fun a b c h1 h2 => tr _ _ _ h2 h1) hm
      (.float k i) (List.mem_map.2 ⟨i, hi, rfl⟩) i (by simp [asFloat])

/-- With a number that compares to nothing, the order of the arguments decides. -/
theorem c89_max_float_false (k : FloatTy) {nan x : F} (h1 : ∀ y, L.flt nan y = false) (h2 : ∀ y, L.flt y nan = false) :
    stdCall L "max" [.float k nan, .float k x] = .ok (.float k nan) ∧ stdCall L "max" [.float k x, .float k nan] = .ok (.float k x) := by
  constructor <;>
  · refine (call_eq L .max _).trans ?_
    simp only [Fn.call]
    simp [callPick, pick, pickFrom, asFloat, h1, h2, ofOpt]

/-! ## C90: strings

Positions are numbers of bytes in `$string_length`, `$substring`, `$string_index_of`, `string_find` and `string_index`, and numbers of
characters in `$string_char_at` and `string_chars`. -/

/-- A string of ASCII characters. -/
def Ascii (s : String) : Prop := ∀ c ∈ s.toList, c.toNat < 128

instance (s : String) : Decidable (Ascii s) := inferInstanceAs (Decidable (∀ c ∈ s.toList, c.toNat < 128))

private theorem ascii_len {s : List Char} (h : ∀ c ∈ s, c.toNat < 128) : byteLen s = s.length := byteLen_ascii fun c hc => ascii_size (h c hc)

/-- `$string_concat` joins its arguments. -/
theorem c90_concat (ss : List String) :
    stdCall L "string_concat" (ss.map .string) = .ok (.string (String.ofList (ss.map String.toList).flatten)) := by
  refine (call_eq L .concat _).trans ?_
  simp only [Fn.call]
  rw [callConcat_eq ss rfl]; rfl

/-- The length of a concatenation is the sum of the lengths, for all strings. -/
theorem c90_length_concat {s t : String} {m n : Int} (hs : stdCall L "string_length" [.string s] = .ok (.int .usize m))
    (ht : stdCall L "string_length" [.string t] = .ok (.int .usize n)) :
    stdCall L "string_length" [.string (s ++ t)] = .ok (.int .usize (m + n)) := by
  have e : ∀ u : String, stdCall L "string_length" [.string u] = .ok (.int .usize (byteLen u.toList)) := fun u => call_eq L .length _
  rw [e] at hs ht ⊢
  simp only [Outcome.ok.injEq, Val.int.injEq, true_and] at hs ht
  rw [String.toList_append, byteLen_append, ← hs, ← ht]
  simp

/-- For ASCII strings `$string_char_at(s, i)` has a value exactly for `i` below `$string_length(s)`. -/
theorem c90_char_at_partial {s : String} (h : Ascii s) {n : Int} (hn : stdCall L "string_length" [.string s] = .ok (.int .usize n)) (i : Nat) :
    (∃ c, stdCall L "string_char_at" [.string s, .int .usize i] = .ok (.char c)) ↔ (i : Int) < n := by
  have e : stdCall L "string_length" [.string s] = .ok (.int .usize (byteLen s.toList)) := call_eq L .length _
  have e' : stdCall L "string_char_at" [.string s, .int .usize i] = ofOpt ((s.toList[i]?).map .char) := call_eq L .charAt _
  rw [e, ascii_len h] at hn
  simp only [Outcome.ok.injEq, Val.int.injEq, true_and] at hn
  rw [e', ← hn]
  constructor
  · rintro ⟨c, hc⟩
    cases hi : s.toList[i]? with
    | none => rw [hi] at hc; simp [ofOpt] at hc
    | some d => exact_mod_cast (List.getElem?_eq_some_iff.1 hi).1
  · intro hi
    have hi : i < s.toList.length := by exact_mod_cast hi
    exact ⟨s.toList[i], by rw [List.getElem?_eq_getElem hi]; rfl⟩

/-- Beyond ASCII it has none for some position below the length. -/
theorem c90_char_at_false :
    stdCall L "string_length" [.string "é"] = .ok (.int .usize 2) ∧ stdCall L "string_char_at" [.string "é", .int .usize 1] = .undef := by
  refine ⟨(call_eq L .length _).trans ?_, (call_eq L .charAt _).trans ?_⟩
  · simp only [Fn.call, callLength]
    rw [show byteLen "é".toList = 2 by decide]; rfl
  · simp only [Fn.call, callCharAt]
    rw [show "é".toList[(1 : Int).toNat]? = none by decide]; rfl

private theorem sub2 (s : String) (i : Nat) :
    stdCall L "substring" [.string s, .int .usize i] = match sliceFrom s.toList i with
      | some r => .ok (.string (String.ofList r))
      | none => .panic := call_eq L .substring _

private theorem sub3 (s : String) (i j : Nat) :
    stdCall L "substring" [.string s, .int .usize i, .int .usize j] = match slice s.toList i j with
      | some r => .ok (.string (String.ofList r))
      | none => .panic := call_eq L .substring _

/-- `$substring(s, i, j)` is what lies between the byte positions `i` and `j`; it panics when there is no such part: when `i > j`, when `j`
is beyond the end or when one of them is inside a character. -/
theorem c90_substring (s : String) (i j : Nat) :
    (∃ a r b : List Char, s.toList = a ++ r ++ b ∧ byteLen a = i ∧ byteLen (a ++ r) = j ∧
      stdCall L "substring" [.string s, .int .usize i, .int .usize j] = .ok (.string (String.ofList r))) ∨
    (stdCall L "substring" [.string s, .int .usize i, .int .usize j] = .panic ∧
      ¬ ∃ a r b : List Char, s.toList = a ++ r ++ b ∧ byteLen a = i ∧ byteLen (a ++ r) = j) := by
  rw [sub3]
  cases h : slice s.toList i j with
  | some r =>
    obtain ⟨a, b, h1, h2, h3⟩ := slice_iff.1 h
    exact Or.inl ⟨a, r, b, h1, h2, by rw [byteLen_append]; exact h3, rfl⟩
  | none =>
    refine Or.inr ⟨rfl, ?_⟩
    rintro ⟨a, r, b, h1, h2, h3⟩
    rw [slice_iff.2 ⟨a, b, h1, h2, by rw [← byteLen_append]; exact h3⟩] at h
    simp at h

/-- For ASCII strings it has a value whenever `i ≤ j ≤ $string_length(s)`: the characters from number `i` to number `j`. -/
theorem c90_substring_ascii {s : String} (h : Ascii s) {i j : Nat} (hij : i ≤ j) (hj : j ≤ s.toList.length) :
    stdCall L "substring" [.string s, .int .usize i, .int .usize j] = .ok (.string (String.ofList ((s.toList.take j).drop i))) := by
  rw [sub3]
  have sub : ∀ {t : List Char}, (∀ c ∈ t, c ∈ s.toList) → byteLen t = t.length := fun ht => ascii_len fun c hc => h c (ht c hc)
  have := slice_iff (s := s.toList) (r := (s.toList.take j).drop i) (i := i) (j := j)
  rw [this.2]
  refine ⟨s.toList.take i, s.toList.drop j, ?_, ?_, ?_⟩
  · have e : s.toList.take i = (s.toList.take j).take i := by rw [List.take_take, Nat.min_eq_left hij]
    rw [e, List.take_append_drop, List.take_append_drop]
  · rw [sub fun c hc => List.mem_of_mem_take hc]; simp; omega
  · rw [sub fun c hc => List.mem_of_mem_take hc, sub fun c hc => List.mem_of_mem_take (List.mem_of_mem_drop hc)]
    simp; omega

/-- The two parts of a string that `$substring` cuts at one position make up the string. -/
theorem c90_substring_parts {s a b : String} {i : Nat}
    (ha : stdCall L "substring" [.string s, .int .usize 0, .int .usize i] = .ok (.string a))
    (hb : stdCall L "substring" [.string s, .int .usize i] = .ok (.string b)) : a ++ b = s := by
  have ha' : stdCall L "substring" [.string s, .int .usize 0, .int .usize i] = _ := sub3 L s 0 i
  rw [ha'] at ha
  rw [sub2] at hb
  cases h1 : slice s.toList 0 i with
  | none => rw [h1] at ha; simp at ha
  | some r =>
    cases h2 : sliceFrom s.toList i with
    | none => rw [h2] at hb; simp at hb
    | some t =>
      rw [h1] at ha; rw [h2] at hb
      simp only [Outcome.ok.injEq, Val.string.injEq] at ha hb
      obtain ⟨x, y, e1, e2, e3⟩ := slice_iff.1 h1
      obtain ⟨z, e4, e5⟩ := sliceFrom_iff.1 h2
      have := byteLen_eq_zero e2
      subst this
      have e6 : z ++ t = r ++ y := by rw [← e4, e1]; simp
      obtain ⟨rfl, -⟩ := prefix_unique e6 (by simp [byteLen] at e3 e5 ⊢; omega)
      rw [← ha, ← hb, ← String.ofList_append, ← e4, String.ofList_toList]

private theorem idx (s p : String) :
    stdCall L "string_index_of" [.string s, .string p] = ofOpt ((findFrom p.toList s.toList 0).map (fun i => .int .usize i)) :=
  call_eq L .indexOf _

/-- `$string_index_of(s, p)` is where the first occurrence of `p` starts; it has no value if there is no occurrence. -/
theorem c90_index_of (s p : String) :
    (∃ a b : List Char, s.toList = a ++ p.toList ++ b ∧ (∀ a' b', s.toList = a' ++ p.toList ++ b' → a.length ≤ a'.length) ∧
      stdCall L "string_index_of" [.string s, .string p] = .ok (.int .usize (byteLen a))) ∨
    (stdCall L "string_index_of" [.string s, .string p] = .undef ∧ ∀ a b, s.toList ≠ a ++ p.toList ++ b) := by
  rw [idx]
  cases h : findFrom p.toList s.toList 0 with
  | none => exact Or.inr ⟨rfl, findFrom_none h⟩
  | some n =>
    obtain ⟨a, b, h1, h2, h3⟩ := findFrom_some h
    exact Or.inl ⟨a, b, h1, h3, by simp [h2, ofOpt]⟩

/-- The substring from `$string_index_of(s, p)`, of the length of `p`, is `p`: for all strings. -/
theorem c90_index_of_substring {s p : String} {i n : Nat} (hi : stdCall L "string_index_of" [.string s, .string p] = .ok (.int .usize i))
    (hn : stdCall L "string_length" [.string p] = .ok (.int .usize n)) :
    stdCall L "substring" [.string s, .int .usize i, .int .usize ((i + n : Nat) : Int)] = .ok (.string p) := by
  have e : stdCall L "string_length" [.string p] = .ok (.int .usize (byteLen p.toList)) := call_eq L .length _
  rw [e] at hn
  simp only [Outcome.ok.injEq, Val.int.injEq, true_and, Int.natCast_inj] at hn
  rw [idx] at hi
  cases h : findFrom p.toList s.toList 0 with
  | none => rw [h] at hi; simp [ofOpt] at hi
  | some m =>
    rw [h] at hi
    have hi : (m : Int) = i := by simpa [ofOpt] using hi
    obtain ⟨a, b, h1, h2, -⟩ := findFrom_some h
    rw [sub3, slice_iff.2 ⟨a, b, h1, by omega, by omega⟩]
    simp

/-- For ASCII patterns `string_find(s, p, begin, end)` says where `p` is: `$substring(s, begin, end)` is `p`. -/
theorem c90_find_partial {s p : String} (hp : Ascii p) {i j : Nat} (h : (i, j) ∈ stringFind s.toList p.toList) :
    stdCall L "substring" [.string s, .int .usize i, .int .usize j] = .ok (.string p) := by
  simp only [stringFind, List.mem_map, Prod.mk.injEq] at h
  obtain ⟨n, hn, rfl, rfl⟩ := h
  obtain ⟨a, b, h1, h2⟩ := matchIndices_sound hn
  rw [sub3, slice_iff.2 ⟨a, b, h1, h2.symm, by rw [ascii_len hp]; omega⟩]
  simp

/-- Beyond ASCII the end is wrong: for `string_find("é", "é", b, e)` it is 1, inside the character, and `$substring("é", b, e)` panics. -/
theorem c90_find_false :
    stringFind "é".toList "é".toList = [(0, 1)] ∧ stdCall L "substring" [.string "é", .int .usize 0, .int .usize 1] = .panic := by
  refine ⟨by decide, (call_eq L .substring _).trans ?_⟩
  simp only [Fn.call, callSubstring]
  rw [show slice "é".toList (0 : Int).toNat (1 : Int).toNat = none by decide]

/-- `string_find` finds an occurrence of a non-empty pattern wherever there is one: every occurrence starts at a place that it gives or
overlaps an occurrence that starts earlier and that it gives. -/
theorem c90_find_all {s p : String} (hp : p.toList ≠ []) {a b : List Char} (h : s.toList = a ++ p.toList ++ b) :
    ∃ a' b' : List Char, s.toList = a' ++ p.toList ++ b' ∧ (byteLen a', byteLen a' + p.toList.length) ∈ stringFind s.toList p.toList ∧
      a'.length ≤ a.length ∧ a.length < a'.length + p.toList.length := by
  obtain ⟨a', b', h1, h2, h3, h4⟩ := matchFrom_complete hp s.toList 0 a b h
  refine ⟨a', b', h1, ?_, h3, h4⟩
  simp only [stringFind, List.mem_map, Prod.mk.injEq]
  refine ⟨byteLen a', ?_, rfl, rfl⟩
  simp only [matchIndices, if_neg hp]
  simpa using h2

/-- `string_chars(s, i, c)` says what `$string_char_at(s, i)` does, for all strings. -/
theorem c90_chars (s : String) (i : Nat) (c : Char) :
    (i, c) ∈ stringChars s.toList ↔ stdCall L "string_char_at" [.string s, .int .usize i] = .ok (.char c) := by
  have e' : stdCall L "string_char_at" [.string s, .int .usize i] = ofOpt ((s.toList[i]?).map .char) := call_eq L .charAt _
  rw [e']
  simp only [stringChars, List.mem_map, Prod.mk.injEq, Prod.exists]
  constructor
  · rintro ⟨d, j, h, rfl, rfl⟩
    rw [List.mem_zipIdx_iff_getElem?] at h
    simp only at h
    rw [h]; rfl
  · intro h
    refine ⟨c, i, ?_, rfl, rfl⟩
    rw [List.mem_zipIdx_iff_getElem?]
    cases hi : s.toList[i]? with
    | none => rw [hi] at h; simp [ofOpt] at h
    | some d => rw [hi] at h; simp [ofOpt] at h; rw [h]

/-- For ASCII strings `string_index(s, i)` gives the positions of the characters. -/
theorem c90_index_partial {s : String} (h : Ascii s) (i : Nat) : i ∈ stringIndex s.toList ↔ ∃ c, (i, c) ∈ stringChars s.toList := by
  simp only [c90_chars (⟨0, fun _ _ => false, fun _ x => x, fun _ x => x, fun _ x => x, fun _ _ _ => none, fun _ _ x _ => x, fun _ _ => "",
    fun _ => "", fun _ => 0⟩ : Lib Nat)]
  rw [c90_char_at_partial _ h ((call_eq _ .length _).trans rfl)]
  simp [stringIndex, ascii_len h]

/-- Beyond ASCII it gives more. -/
theorem c90_index_false : 1 ∈ stringIndex "é".toList ∧ ∀ c, (1, c) ∉ stringChars "é".toList := by
  refine ⟨by decide, fun c h => ?_⟩
  have : stringChars "é".toList = [(0, 'é')] := by decide
  rw [this] at h
  simp at h

/-- `string_split(s, p, x)` gives pieces of `s` that joined by `p` make up `s` again, and that contain no `p` unless `p` is empty. -/
theorem c90_split (s p : String) :
    p.toList.intercalate (stringSplit s.toList p.toList) = s.toList ∧
      (p.toList ≠ [] → ∀ q ∈ stringSplit s.toList p.toList, ∀ a b, q ≠ a ++ p.toList ++ b) :=
  ⟨split_join _ _, fun hp _ hq a b => split_free hp hq a b⟩

/-- `$string_replace(s, p, r)` puts `r` where `p` separates those pieces. -/
theorem c90_replace (s p r : String) :
    ∃ pieces : List (List Char), p.toList.intercalate pieces = s.toList ∧
      (p.toList ≠ [] → ∀ q ∈ pieces, ∀ a b, q ≠ a ++ p.toList ++ b) ∧
      stdCall L "string_replace" [.string s, .string p, .string r] = .ok (.string (String.ofList (r.toList.intercalate pieces))) :=
  ⟨split s.toList p.toList, split_join _ _, fun hp _ hq a b => split_free hp hq a b, call_eq L .replace _⟩

/-- The printed arguments and the pieces of the format string in turns. -/
def filled : List (List Char) → List String → List Char
  | [], _ => []
  | [q], _ => q
  | q :: _, [] => q
  | q :: q' :: qs, a :: as => q ++ a.toList ++ filled (q' :: qs) as

private theorem interleave_filled (q : List Char) (ps : List (List Char)) (as : List String) (h : as.length = ps.length) :
    q ++ interleave (as.map String.toList) ps = filled (q :: ps) as := by
  induction ps generalizing q as with
  | nil => cases as with
    | nil => simp [interleave, filled]
    | cons a as => simp at h
  | cons p ps ih =>
    cases as with
    | nil => simp at h
    | cons a as =>
      simp only [List.map_cons, interleave, filled]
      rw [List.append_assoc a.toList, ih p as (by simpa using h)]
      simp

/-- `$format(f, …)` puts the arguments, printed, where `{}` separates the pieces of `f`; it panics unless there is one argument for each
`{}`. -/
theorem c90_format (f : String) (args : List (Val F)) :
    ∃ pieces : List (List Char), ['{', '}'].intercalate pieces = f.toList ∧ (∀ q ∈ pieces, ∀ a b, q ≠ a ++ ['{', '}'] ++ b) ∧
      stdCall L "format" (.string f :: args) =
        if pieces.length = args.length + 1 then .ok (.string (String.ofList (filled pieces (args.map (showVal L))))) else .panic := by
  refine ⟨split f.toList ['{', '}'], split_join _ _, fun q hq a b => split_free (by simp) hq a b, (call_eq L .format _).trans ?_⟩
  simp only [Fn.call, callFormat]
  obtain ⟨q, ps, hs⟩ := List.exists_cons_of_ne_nil (split_ne_nil f.toList ['{', '}'])
  rw [hs]
  simp only [List.length_cons, Nat.add_right_cancel_iff]
  by_cases hl : args.length = ps.length
  · rw [if_pos hl, if_pos hl.symm, ← interleave_filled q ps (args.map (showVal L)) (by simpa using hl)]
    simp [Function.comp_def]
  · rw [if_neg hl, if_neg fun h => hl h.symm]

/-- `$string_trim(s)` is `s` without white space around it. -/
theorem c90_trim (s : String) :
    ∃ a r b : List Char, s.toList = a ++ r ++ b ∧ (∀ c ∈ a, isWhite c = true) ∧ (∀ c ∈ b, isWhite c = true) ∧
      (∀ c, r.head? = some c → isWhite c = false) ∧ (∀ c, r.getLast? = some c → isWhite c = false) ∧
      stdCall L "string_trim" [.string s] = .ok (.string (String.ofList r)) := by
  have key : ∀ l : List Char, ∃ a, l = a ++ l.dropWhile isWhite ∧ ∀ c ∈ a, isWhite c = true := fun l =>
    ⟨l.takeWhile isWhite, (List.takeWhile_append_dropWhile).symm, fun c hc => List.mem_takeWhile_imp hc⟩
  obtain ⟨a, h1, h2⟩ := key s.toList
  obtain ⟨b, h3, h4⟩ := key (s.toList.dropWhile isWhite).reverse
  have h5 : s.toList.dropWhile isWhite = trim s.toList ++ b.reverse := by
    have := congrArg List.reverse h3
    simpa [trim] using this
  have hd : ∀ l : List Char, ∀ c, (l.dropWhile isWhite).head? = some c → isWhite c = false := by
    intro l c hc
    have := List.head?_dropWhile_not isWhite l
    rw [hc] at this
    simpa using this
  refine ⟨a, trim s.toList, b.reverse, by rw [List.append_assoc, ← h5, ← h1], h2, fun c hc => h4 c (by simpa using hc), fun c hc => ?_,
    fun c hc => ?_, call_eq L .trim _⟩
  · refine hd s.toList c ?_
    rw [h5]
    cases ht : trim s.toList with
    | nil => rw [ht] at hc; simp at hc
    | cons d t => rw [ht] at hc; simpa using hc
  · refine hd (s.toList.dropWhile isWhite).reverse c ?_
    simpa [trim] using hc

/-- `$string_upper` and `$string_lower` keep the number of characters, and a second call changes nothing. -/
theorem c90_case (s : String) : ∃ u l : String,
    stdCall L "string_upper" [.string s] = .ok (.string u) ∧ stdCall L "string_lower" [.string s] = .ok (.string l) ∧
    u.toList.length = s.toList.length ∧ l.toList.length = s.toList.length ∧
    stdCall L "string_upper" [.string u] = .ok (.string u) ∧ stdCall L "string_lower" [.string l] = .ok (.string l) := by
  have up : ∀ c : Char, c.toUpper.toUpper = c.toUpper := fun c => toUpper_idem c
  have lo : ∀ c : Char, c.toLower.toLower = c.toLower := fun c => toLower_idem c
  refine ⟨String.ofList (s.toList.map Char.toUpper), String.ofList (s.toList.map Char.toLower), call_eq L .upper _, call_eq L .lower _,
    by simp, by simp, (call_eq L .upper _).trans ?_, (call_eq L .lower _).trans ?_⟩
  · simp [Fn.call, callMap, Function.comp_def, up]
  · simp [Fn.call, callMap, Function.comp_def, lo]

/-! ## The hypotheses are met -/

/-- Integers for floating point numbers. -/
private def tL : Lib Int :=
  ⟨0, fun a b => decide (a < b), fun _ x => x.natAbs, fun _ x => x, fun _ x => x, fun _ _ x => some x, fun _ _ x _ => x, fun _ x => toString x,
    fun e => toString e, fun _ => 0⟩

example : Ascii "hello" := by decide
example : ¬ Ascii "é" := by decide
example : Fn.substring ≠ .sign ∧ stdCall tL "substring" [.string "hello", .int .usize 1, .int .usize 3] = .ok (.string "el") := by
  refine ⟨by decide, (c90_substring_ascii tL (s := "hello") (by decide) (i := 1) (j := 3) (by decide) (by decide)).trans ?_⟩
  decide
example : ArgsFit Fn.pow.ty ([.int .i8 3, .int .u32 4] : List (Val Int)) := by
  refine ⟨(by simp [Fn.ty]), fun k v t hk ht => ?_, fun i j v w g hi hj ti tj => ?_, fun k v g fam hk tk hf => ?_⟩
  · match k with
    | 0 => simp [Fn.ty, FunTy.argTy] at ht
    | 1 => simp [Fn.ty, FunTy.argTy] at hk ht; subst hk; subst ht; rfl
    | k + 2 => simp at hk
  · match i, j with
    | 0, 0 => simp at hi hj; rw [← hi, ← hj]
    | 1, _ => simp [Fn.ty, FunTy.argTy] at ti
    | _, 1 => simp [Fn.ty, FunTy.argTy] at tj
    | i + 2, _ => simp at hi
    | _, j + 2 => simp at hj
  · match k with
    | 0 =>
      simp [Fn.ty, FunTy.argTy] at hk tk
      subst hk; subst tk
      simp [Fn.ty] at hf
      subst hf
      rfl
    | 1 => simp [Fn.ty, FunTy.argTy] at tk
    | k + 2 => simp at hk
example : stdCall tL "pow" [.int .i8 3, .int .u32 4] = .ok (.int .i8 81) := (c89_pow tL).trans (by decide)
example : (∀ a, tL.flt a a = false) ∧ (∀ a b, tL.flt a b = true → tL.flt b a = false) ∧
    ∀ a b c, tL.flt a b = false → tL.flt b c = false → tL.flt a c = false := by
  refine ⟨fun a => by simp [tL], fun a b h => ?_, fun a b c h1 h2 => ?_⟩ <;> simp [tL] at * <;> omega
example : stdCall tL "string_index_of" [.string "naïve", .string "ve"] = .ok (.int .usize 4) :=
  (call_eq tL .indexOf _).trans (by decide)
example : stdCall tL "substring" [.string "naïve", .int .usize 4, .int .usize 6] = .ok (.string "ve") :=
  (call_eq tL .substring _).trans (by decide)
example : stringFind "abcabc".toList "bc".toList = [(1, 3), (4, 6)] := by decide
example : stringSplit "a,b,,c".toList ",".toList = ["a".toList, "b".toList, [], "c".toList] := by decide
example : stdCall tL "format" [.string "{}+{}!", .int .i8 3, .string "x"] = .ok (.string "3+x!") :=
  (call_eq tL .format _).trans (by decide)
example : stdCall tL "string_replace" [.string "abab", .string "ab", .string "c"] = .ok (.string "cc") :=
  (call_eq tL .replace _).trans (by decide)

end Scallop.Foreign
