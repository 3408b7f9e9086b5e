import Verif.Spec.Entity
import Mathlib.Data.List.Perm.Basic

/-!
# Lemmas about entities
-/

namespace Scallop.Ent

open Ty

variable {F : Type}

theorem adtName_inj {f g : String} (h : adtName f = adtName g) : f = g := by
  have := congrArg String.toList h
  simp only [adtName, String.toList_append, List.append_cancel_left_eq] at this
  exact String.toList_injective this

theorem adtName_ne {f g : String} (h : '#' ∉ f.toList) : f ≠ adtName g := by
  rintro rfl
  refine h ?_
  simp only [adtName, String.toList_append, List.mem_append]
  left
  decide

theorem adtName_ne_self (f : String) : f ≠ adtName f := by
  intro h
  have := congrArg (fun s => s.toList.length) h
  simp only [adtName, String.toList_append, List.length_append] at this
  have : "adt#".toList.length = 4 := by decide
  omega

theorem fits_inj {k : IntTy} {n m : Int} (hn : k.fits n = true) (hm : k.fits m = true) (h : n % 2 ^ k.bits = m % 2 ^ k.bits) : n = m := by
  simp only [IntTy.fits, Bool.and_eq_true, decide_eq_true_eq] at hn hm
  cases k <;> simp [IntTy.lo, IntTy.hi, IntTy.signed, IntTy.bits] at hn hm h <;> omega

theorem valToks_inj {v w : Val F} {r r' : List (Tok F)} (ht : v.ty = w.ty) (hv : InRange v) (hw : InRange w)
    (h : valToks v ++ r = valToks w ++ r') : v = w ∧ r = r' := by
  cases v <;> cases w <;> simp [Val.ty] at ht <;> simp [valToks] at h
  case int.int k n l m =>
    subst ht
    exact ⟨by rw [fits_inj hv hw h.1.2], h.2⟩
  case float.float => exact ⟨by rw [ht, h.1.2], h.2⟩
  case char.char c d => exact ⟨by rw [Char.ext (UInt32.toNat_inj.1 (Int.natCast_inj.1 h.1))], h.2⟩
  case bool.bool b c => exact ⟨by cases b <;> cases c <;> simp_all, h.2⟩
  case string.string => exact ⟨by rw [h.1], h.2⟩
  case symbol.symbol => exact ⟨by rw [h.1], h.2⟩
  case entity.entity => exact ⟨by rw [Int.natCast_inj.1 h.1], h.2⟩

theorem valsToks_inj : ∀ {vs ws : List (Val F)}, vs.map Val.ty = ws.map Val.ty → (∀ v ∈ vs, InRange v) → (∀ w ∈ ws, InRange w) →
    vs.flatMap valToks = ws.flatMap valToks → vs = ws
  | [], [], _, _, _, _ => rfl
  | [], _ :: _, h, _, _, _ => by simp at h
  | _ :: _, [], h, _, _, _ => by simp at h
  | v :: vs, w :: ws, ht, hv, hw, h => by
    simp only [List.map_cons, List.cons.injEq] at ht
    simp only [List.flatMap_cons] at h
    obtain ⟨h1, h2⟩ := valToks_inj ht.1 (hv v (by simp)) (hw w (by simp)) h
    rw [h1, valsToks_inj ht.2 (fun x hx => hv x (by simp [hx])) (fun x hx => hw x (by simp [hx])) h2]

theorem litToks_inj {c d : Const F} {r r' : List (Tok F)} (ht : constTag c = constTag d) (h : litToks c ++ r = litToks d ++ r') :
    c = d ∧ r = r' := by
  cases c <;> cases d <;> simp [constTag] at ht <;> simp [litToks] at h
  case int.int => exact ⟨by rw [h.1], h.2⟩
  case float.float => exact ⟨by rw [h.1], h.2⟩
  case char.char c d =>
    exact ⟨by rw [h.1], h.2⟩
  case bool.bool b c => exact ⟨by cases b <;> cases c <;> simp_all, h.2⟩
  case string.string => exact ⟨by rw [h.1], h.2⟩
  case symbol.symbol => exact ⟨by rw [h.1], h.2⟩
  case entity.entity => exact ⟨by rw [Int.natCast_inj.1 h.1], h.2⟩

theorem constToks_inj {c d : Const F × Loc} {r r' : List (Tok F)} (h : constToks c ++ r = constToks d ++ r') : c = d ∧ r = r' := by
  obtain ⟨c, l⟩ := c
  obtain ⟨d, m⟩ := d
  simp only [constToks, List.cons_append, List.nil_append, List.cons.injEq, Tok.num.injEq, true_and, Int.natCast_inj] at h
  obtain ⟨h1, h2, h3, h4, h5⟩ := h
  obtain ⟨h6, h7⟩ := litToks_inj h1 h5
  obtain ⟨a, b, c'⟩ := l
  obtain ⟨a', b', c''⟩ := m
  simp only at h2 h3 h4
  exact ⟨by rw [h6, h2, h3, h4], h7⟩

theorem constsToks_inj : ∀ {cs ds : List (Const F × Loc)}, cs.flatMap constToks = ds.flatMap constToks → cs = ds
  | [], [], _ => rfl
  | [], d :: ds, h => by simp [constToks] at h
  | c :: cs, [], h => by simp [constToks] at h
  | c :: cs, d :: ds, h => by
    simp only [List.flatMap_cons] at h
    obtain ⟨h1, h2⟩ := constToks_inj h
    rw [h1, constsToks_inj h2]

theorem constToks_length (c : Const F × Loc) : (constToks c).length = 5 := by
  obtain ⟨c, l⟩ := c
  cases c <;> rfl

theorem constsToks_length : ∀ cs : List (Const F × Loc), (cs.flatMap constToks).length = 5 * cs.length
  | [] => rfl
  | c :: cs => by
    rw [List.flatMap_cons, List.length_append, constToks_length, constsToks_length cs, List.length_cons]
    omega

theorem valsToks_length : ∀ vs : List (Val F), (vs.flatMap valToks).length ≤ 2 * vs.length
  | [] => by simp
  | v :: vs => by
    rw [List.flatMap_cons, List.length_append, List.length_cons]
    have := valsToks_length vs
    have : (valToks v).length ≤ 2 := by cases v <;> simp [valToks]
    omega

theorem constVals_length {C : Conv F} : ∀ {cs : List (Const F)} {tys vs}, constVals C cs tys = some vs → cs.length = vs.length
  | [], [], vs, h => by simp [constVals] at h; subst h; rfl
  | [], _ :: _, _, h => by simp [constVals] at h
  | _ :: _, [], _, h => by simp [constVals] at h
  | c :: cs, ty :: tys, vs, h => by
    simp only [constVals] at h
    split at h
    · next v vs' h1 h2 =>
      simp only [Option.some.injEq] at h
      subst h
      simp [constVals_length h2]
    · simp at h

theorem const_val {C : Conv F} {cs : List (Const F × Loc)} {tys : List VTy} {vs ws : List (Val F)}
    (hv : constVals C (cs.map Prod.fst) tys = some vs) (h : cs.flatMap constToks = ws.flatMap valToks) (hl : ws.length = tys.length)
    : vs = [] ∧ ws = [] := by
  have h1 := constVals_length hv
  have h2 : tys.length = vs.length := by
    clear h h1 hl
    generalize cs.map Prod.fst = ds at hv
    induction ds generalizing tys vs with
    | nil => cases tys <;> simp [constVals] at hv; subst hv; rfl
    | cons c cs ih =>
      cases tys with
      | nil => simp [constVals] at hv
      | cons ty tys =>
        simp only [constVals] at hv
        split at hv
        · next v vs' h1 h2 =>
          simp only [Option.some.injEq] at hv
          subst hv
          simp [ih h2]
        · simp at hv
  have h3 := congrArg List.length h
  rw [constsToks_length] at h3
  have h4 := valsToks_length ws
  simp only [List.length_map] at h1
  constructor
  · exact List.length_eq_zero_iff.1 (by omega)
  · exact List.length_eq_zero_iff.1 (by omega)

/-- Without collisions entities have one constructor and one list of arguments. -/
theorem coherent {C : Conv F} {types : String → Option (List VTy)} {h : Hash F} {used : List (Tok F) → Prop} {S : Fact F → Prop}
    (hm : Made C types h used S) (hc : NoCollision h used) (ht : ∀ a, S a → a.Typed types) (hn : Named types S) : Coherent S := by
  intro a b ha hb hid
  obtain ⟨ta, ua, ia, ea⟩ := hm a ha
  obtain ⟨tb, ub, ib, eb⟩ := hm b hb
  have e : ta = tb := hc ta tb ua ub (by
    rw [ea, eb] at hid
    simpa [Fin.ext_iff] using hid)
  obtain ⟨f, hf, hf', hfs⟩ := hn a ha
  obtain ⟨g, hg, hg', hgs⟩ := hn b hb
  have hta := ht a ha
  have htb := ht b hb
  have two : ∀ {f : String} {i j : Val F} {vs ws : List (Val F)}, (types f).isSome → Fact.Typed types ⟨adtName f, i, vs⟩ →
      Fact.Typed types ⟨adtName f, j, ws⟩ → vs.flatMap valToks = ws.flatMap valToks → vs = ws := by
    intro f i j vs ws hs h1 h2 h3
    obtain ⟨tys, hty⟩ := Option.isSome_iff_exists.1 hs
    obtain ⟨a1, a2⟩ := h1 f tys rfl hty
    obtain ⟨b1, b2⟩ := h2 f tys rfl hty
    exact valsToks_inj (a1.trans b1.symm) a2 b2 h3
  have len : ∀ {f : String} {tys} {j : Val F} {ws : List (Val F)}, types f = some tys → Fact.Typed types ⟨adtName f, j, ws⟩ →
      ws.length = tys.length := by
    intro f tys j ws hty h2
    obtain ⟨b1, -⟩ := h2 f tys rfl hty
    simpa using congrArg List.length b1
  cases ia with
  | string f' i vs =>
    have := adtName_inj hf; subst this
    cases ib with
    | string g' j ws =>
      have := adtName_inj hg; subst this
      simp only [List.cons.injEq, Tok.str.injEq] at e
      obtain ⟨rfl, e⟩ := e
      simp only at hid
      rw [hid, two hfs hta htb e]
    | new g' j ws =>
      simp only [List.cons.injEq, Tok.str.injEq] at e
      exact absurd e.1 (adtName_ne hf')
    | const g' j ws cs tys hty hv =>
      have := adtName_inj hg; subst this
      simp only [List.cons.injEq, Tok.str.injEq] at e
      obtain ⟨rfl, e⟩ := e
      obtain ⟨rfl, rfl⟩ := const_val hv e.symm (len hty hta)
      simp only at hid
      rw [hid]
  | new f' i vs =>
    have := adtName_inj hf; subst this
    cases ib with
    | string g' j ws =>
      have := adtName_inj hg; subst this
      simp only [List.cons.injEq, Tok.str.injEq] at e
      exact absurd e.1.symm (adtName_ne hg')
    | new g' j ws =>
      simp only [List.cons.injEq, Tok.str.injEq] at e
      obtain ⟨e1, e⟩ := e
      have := adtName_inj e1
      subst this
      simp only at hid
      rw [hid, two hfs hta htb e]
    | const g' j ws cs tys hty hv =>
      have := adtName_inj hg; subst this
      simp only [List.cons.injEq, Tok.str.injEq] at e
      exact absurd e.1.symm (adtName_ne hg')
  | const f' i vs cs tys hty hv =>
    have := adtName_inj hf; subst this
    cases ib with
    | string g' j ws =>
      have := adtName_inj hg; subst this
      simp only [List.cons.injEq, Tok.str.injEq] at e
      obtain ⟨rfl, e⟩ := e
      obtain ⟨rfl, rfl⟩ := const_val hv e (len hty htb)
      simp only at hid
      rw [hid]
    | new g' j ws =>
      simp only [List.cons.injEq, Tok.str.injEq] at e
      exact absurd e.1 (adtName_ne hf')
    | const g' j ws ds tys' hty' hv' =>
      have := adtName_inj hg; subst this
      simp only [List.cons.injEq, Tok.str.injEq] at e
      obtain ⟨rfl, e⟩ := e
      have := constsToks_inj e
      subst this
      rw [hty] at hty'
      cases hty'
      rw [hv] at hv'
      cases hv'
      simp only at hid
      rw [hid]

mutual
theorem shows_unique {S : Fact F → Prop} (hS : Coherent S) : ∀ {t t' : VTerm F} {v : Val F}, t.shows S v → t'.shows S v → t = t'
  | .val v, .val v', w, h, h' => by
    simp only [VTerm.shows] at h h'
    rw [← h.1, ← h'.1]
  | .val v, .obj f as, w, h, h' => by
    simp only [VTerm.shows] at h h'
    obtain ⟨e, vs, rfl, -⟩ := h'
    exact absurd h.1.symm (h.2 e)
  | .obj f as, .val v, w, h, h' => by
    simp only [VTerm.shows] at h h'
    obtain ⟨e, vs, rfl, -⟩ := h
    exact absurd h'.1.symm (h'.2 e)
  | .obj f as, .obj g bs, w, h, h' => by
    simp only [VTerm.shows] at h h'
    obtain ⟨e, vs, rfl, h1, h2⟩ := h
    obtain ⟨e', vs', he, h1', h2'⟩ := h'
    cases he
    have := hS _ _ h1 h1' rfl
    simp only [Fact.mk.injEq, true_and] at this
    obtain ⟨h3, rfl⟩ := this
    rw [adtName_inj h3, showsAll_unique hS h2 h2']
theorem showsAll_unique {S : Fact F → Prop} (hS : Coherent S) : ∀ {t t' : List (VTerm F)} {v : List (Val F)}, VTerm.showsAll S t v →
    VTerm.showsAll S t' v → t = t'
  | [], [], _, _, _ => rfl
  | [], _ :: _, [], _, h => by simp [VTerm.showsAll] at h
  | [], _ :: _, _ :: _, h, _ => by simp [VTerm.showsAll] at h
  | _ :: _, [], [], h, _ => by simp [VTerm.showsAll] at h
  | _ :: _, [], _ :: _, _, h => by simp [VTerm.showsAll] at h
  | _ :: _, _ :: _, [], h, _ => by simp [VTerm.showsAll] at h
  | t :: ts, t' :: ts', v :: vs, h, h' => by
    simp only [VTerm.showsAll] at h h'
    rw [shows_unique hS h.1 h'.1, showsAll_unique hS h.2 h'.2]
end

mutual
theorem shows_mono {S T : Fact F → Prop} (hST : ∀ a, S a → T a) : ∀ {t : VTerm F} {v : Val F}, t.shows S v → t.shows T v
  | .val _, _, h => h
  | .obj f as, w, h => by
    simp only [VTerm.shows] at h ⊢
    obtain ⟨e, vs, rfl, h1, h2⟩ := h
    exact ⟨e, vs, rfl, hST _ h1, showsAll_mono hST h2⟩
theorem showsAll_mono {S T : Fact F → Prop} (hST : ∀ a, S a → T a) : ∀ {t : List (VTerm F)} {v : List (Val F)}, VTerm.showsAll S t v →
    VTerm.showsAll T t v
  | [], [], _ => trivial
  | [], _ :: _, h => by simp [VTerm.showsAll] at h
  | _ :: _, [], h => by simp [VTerm.showsAll] at h
  | t :: ts, v :: vs, h => by
    simp only [VTerm.showsAll] at h ⊢
    exact ⟨shows_mono hST h.1, showsAll_mono hST h.2⟩
end

theorem parseConst_toVal {C : Conv F} {c : Const F} {ty : VTy} {v : Val F} (h : parseConst C c ty = some v) :
    c.toVal C.ofInt C.toF ty = some v ∧ ∀ e, v ≠ .entity e := by
  cases c <;> cases ty <;> simp [parseConst] at h <;> subst h <;> simp [Const.toVal]

end Scallop.Ent
