import Verif.Proof.TypeSet

/-! # Unification only narrows types -/

namespace Scallop.Ty

variable {F : Type}

/-- `a` is narrower than `b`; an absent type is the widest. -/
def oLe : Option TSet → Option TSet → Prop
  | _, none => True
  | some a, some b => a.le b
  | none, some _ => False

theorem oLe_refl (a : Option TSet) : oLe a a := by
  cases a with
  | none => trivial
  | some a => exact TSet.le_refl a

theorem oLe_trans {a b c : Option TSet} (h1 : oLe a b) (h2 : oLe b c) : oLe a c := by
  cases c with
  | none => cases a <;> trivial
  | some c =>
    cases b with
    | none => exact h2.elim
    | some b =>
      cases a with
      | none => exact h1.elim
      | some a => exact TSet.le_trans h1 h2

theorem oLe_antisymm {a b : Option TSet} (h1 : oLe a b) (h2 : oLe b a) : a = b := by
  cases a <;> cases b
  · rfl
  · exact h1.elim
  · exact h2.elim
  · exact congrArg some (TSet.le_antisymm h1 h2)

/-- All the types of `s'` are narrower than those of `s`. -/
def Desc (s' s : ET) : Prop := ∀ l, oLe (s' l) (s l)

theorem Desc.refl (s : ET) : Desc s s := fun _ => oLe_refl _
theorem Desc.trans {a b c : ET} (h1 : Desc a b) (h2 : Desc b c) : Desc a c := fun l => oLe_trans (h1 l) (h2 l)
theorem Desc.antisymm {a b : ET} (h1 : Desc a b) (h2 : Desc b a) : a = b := funext fun l => oLe_antisymm (h1 l) (h2 l)

theorem Desc.set {s : ET} {e : Loc} {n : TSet} (h : oLe (some n) (s e)) : Desc (s.set e n) s := by
  intro l
  unfold ET.set
  split
  · next hl => subst hl; exact h
  · exact oLe_refl _

theorem Desc.base {s' s : ET} (h : Desc s' s) {l : Loc} {t : VTy} (hs : s l = some (.base t)) : s' l = some (.base t) := by
  have := h l
  rw [hs] at this
  cases h' : s' l with
  | none => rw [h'] at this; exact this.elim
  | some a => rw [h'] at this; exact congrArg some (TSet.le_base this)

theorem ET.set_self {s : ET} {e : Loc} {n : TSet} : (s.set e n) e = some n := by simp [ET.set]
theorem ET.set_ne {s : ET} {e l : Loc} {n : TSet} (h : l ≠ e) : (s.set e n) l = s l := by simp [ET.set, h]

theorem Res.bind_ok {α β : Type} {x : Res α} {f : α → Res β} {b : β} : x.bind f = .ok b ↔ ∃ a, x = .ok a ∧ f a = .ok b := by
  cases x <;> simp [Res.bind]

theorem Res.ofOption_ok {α : Type} {x : Option α} {a : α} : Res.ofOption x = .ok a ↔ x = some a := by
  cases x <;> simp [Res.ofOption]

theorem Res.ok_inj {α : Type} {a b : α} : (Res.ok a = Res.ok b) ↔ a = b := by simp

theorem unifyTy_ok {e : Loc} {ty n : TSet} {s s' : ET} (h : unifyTy e ty s = .ok (n, s')) :
    s' = s.set e n ∧ n.le ty ∧ oLe (some n) (s e) ∧ ty.unify ((s e).getD ty) = some n := by
  simp only [unifyTy, Res.bind_ok, Res.ofOption_ok, Res.ok_inj, Prod.mk.injEq] at h
  obtain ⟨m, hm, rfl, rfl⟩ := h
  obtain ⟨h1, h2, _⟩ := TSet.unify_some hm
  refine ⟨rfl, h1, ?_, hm⟩
  cases hs : s e with
  | none => trivial
  | some o => rw [hs] at h2; exact h2

theorem unifyTy_desc {e : Loc} {ty : TSet} {s : ET} {r : TSet × ET} (h : unifyTy e ty s = .ok r) : Desc r.2 s := by
  obtain ⟨n, s'⟩ := r
  obtain ⟨rfl, _, h, _⟩ := unifyTy_ok h
  exact Desc.set h

theorem narrow_ok {e : Loc} {ty : TSet} {s s' : ET} (h : narrow e ty s = .ok s') :
    ∃ n, s' = s.set e n ∧ n.le ty ∧ oLe (some n) (s e) := by
  simp only [narrow, Res.bind_ok, Res.ok_inj] at h
  obtain ⟨⟨n, t⟩, h, rfl⟩ := h
  obtain ⟨h1, h2, h3, _⟩ := unifyTy_ok h
  exact ⟨n, h1, h2, h3⟩

theorem narrow_desc {e : Loc} {ty : TSet} {s s' : ET} (h : narrow e ty s = .ok s') : Desc s' s := by
  obtain ⟨n, rfl, _, h⟩ := narrow_ok h
  exact Desc.set h

/-- After `narrow`, the type of `e` is below the given one. -/
theorem narrow_self {e : Loc} {ty : TSet} {s s' : ET} (h : narrow e ty s = .ok s') : ∃ n, s' e = some n ∧ n.le ty := by
  obtain ⟨n, rfl, h, _⟩ := narrow_ok h
  exact ⟨n, ET.set_self, h⟩

theorem getOrInsert_desc (e : Loc) (ty : TSet) (s : ET) : Desc (getOrInsert e ty s).2 s := by
  unfold getOrInsert
  cases h : s e with
  | some t => exact Desc.refl _
  | none => exact Desc.set (by rw [h]; trivial)

theorem getOrInsert_self (e : Loc) (ty : TSet) (s : ET) : (getOrInsert e ty s).2 e = some (getOrInsert e ty s).1 := by
  unfold getOrInsert
  cases h : s e with
  | some t => exact h
  | none => exact ET.set_self

theorem setAll_ne {ls : List Loc} {t : TSet} {l : Loc} (h : l ∉ ls) {s : ET} : setAll s ls t l = s l := by
  induction ls generalizing s with
  | nil => rfl
  | cons a ls ih =>
    simp only [List.mem_cons, not_or] at h
    show setAll (s.set a t) ls t l = s l
    rw [ih h.2, ET.set_ne h.1]

theorem setAll_mem {ls : List Loc} {t : TSet} {l : Loc} (h : l ∈ ls) {s : ET} : setAll s ls t l = some t := by
  induction ls generalizing s with
  | nil => simp at h
  | cons a ls ih =>
    show setAll (s.set a t) ls t l = some t
    by_cases h' : l ∈ ls
    · exact ih h'
    · rcases List.mem_cons.1 h with rfl | h
      · rw [setAll_ne h', ET.set_self]
      · exact absurd h h'

theorem setAll_desc {ls : List Loc} {t : TSet} {s : ET} (h : ∀ l ∈ ls, oLe (some t) (s l)) : Desc (setAll s ls t) s := by
  intro l
  by_cases hl : l ∈ ls
  · rw [setAll_mem hl]; exact h l hl
  · rw [setAll_ne hl]; exact oLe_refl _

/-! ## The unifications -/

theorem unifyPoly_desc {rules : List (VTy × VTy × VTy)} {strict : Bool} {a b e : Loc} {s s' : ET}
    (h : unifyPoly rules strict a b e s = .ok s') : Desc s' s := by
  simp only [unifyPoly, Res.bind_ok] at h
  obtain ⟨r1, h1, r2, h2, r3, h3, h⟩ := h
  have d := ((unifyTy_desc h3).trans (unifyTy_desc h2)).trans (unifyTy_desc h1)
  split at h
  · simp at h
  · split at h
    · simp only [Res.bind_ok] at h
      obtain ⟨s1, g1, s2, g2, g3⟩ := h
      exact (((narrow_desc g3).trans (narrow_desc g2)).trans (narrow_desc g1)).trans d
    · rw [Res.ok_inj] at h; subst h; exact d

theorem unifyCmp_desc {strict : Bool} {a b e : Loc} {s s' : ET} (h : unifyCmp strict a b e s = .ok s') : Desc s' s := by
  simp only [unifyCmp, Res.bind_ok] at h
  obtain ⟨r1, h1, r2, h2, r3, h3, h⟩ := h
  have d := ((unifyTy_desc h3).trans (unifyTy_desc h2)).trans (unifyTy_desc h1)
  split at h
  · simp at h
  · split at h
    · simp only [Res.bind_ok] at h
      obtain ⟨s1, g1, g2⟩ := h
      exact ((narrow_desc g2).trans (narrow_desc g1)).trans d
    · rw [Res.ok_inj] at h; subst h; exact d

theorem unifyArgs_desc {ft : FunTy} {as : List Loc} {i : Nat} {s s' : ET} (h : unifyArgs ft i as s = .ok s') : Desc s' s := by
  induction as generalizing i s with
  | nil => simp only [unifyArgs, Res.ok_inj] at h; subst h; exact Desc.refl _
  | cons a as ih =>
    simp only [unifyArgs] at h
    split at h
    · simp at h
    · exact ih h
    · simp only [Res.bind_ok] at h
      obtain ⟨s1, g1, g2⟩ := h
      exact (ih g2).trans (narrow_desc g1)

theorem unifyInstances_desc {fam : TSet} {ls : List Loc} {agg : TSet} {s : ET} {r : TSet × ET}
    (h : unifyInstances fam ls agg s = .ok r) :
    Desc r.2 s ∧ r.1.le agg ∧ ∀ l ∈ ls, oLe (some r.1) (s l) ∧ ∃ n, r.2 l = some n ∧ r.1.le n := by
  induction ls generalizing agg s with
  | nil =>
    simp only [unifyInstances, Res.ok_inj] at h; subst h
    exact ⟨Desc.refl _, TSet.le_refl _, by simp⟩
  | cons a ls ih =>
    simp only [unifyInstances, Res.bind_ok, Res.ofOption_ok] at h
    obtain ⟨⟨n, s1⟩, h1, ag, h2, h3⟩ := h
    obtain ⟨i1, i2, i3⟩ := ih h3
    obtain ⟨rfl, g2, g3, _⟩ := unifyTy_ok h1
    obtain ⟨u1, u2, _⟩ := TSet.unify_some h2
    refine ⟨i1.trans (Desc.set g3), TSet.le_trans i2 u1, fun l hl => ?_⟩
    by_cases hl' : l ∈ ls
    · exact ⟨oLe_trans (i3 l hl').1 (Desc.set g3 l), (i3 l hl').2⟩
    · rcases List.mem_cons.1 hl with rfl | hl
      · refine ⟨?_, ?_⟩
        · exact oLe_trans (b := some n) (TSet.le_trans i2 u2) g3
        · -- the stored type of `l`
          have d := i1 l
          simp only [ET.set_self] at d
          cases hr : r.2 l with
          | none => rw [hr] at d; exact d.elim
          | some m =>
            refine ⟨m, rfl, ?_⟩
            have : ∀ {ls : List Loc} {agg : TSet} {s : ET} {r : TSet × ET}, unifyInstances fam ls agg s = .ok r → l ∉ ls → r.2 l = s l := by
              intro ls
              induction ls with
              | nil => intro agg s r h _; simp only [unifyInstances, Res.ok_inj] at h; subst h; rfl
              | cons b ls ih' =>
                intro agg s r h hn
                simp only [unifyInstances, Res.bind_ok, Res.ofOption_ok] at h
                obtain ⟨⟨n, s1⟩, h1, ag, h2, h3⟩ := h
                obtain ⟨rfl, _⟩ := unifyTy_ok h1
                simp only [List.mem_cons, not_or] at hn
                rw [ih' h3 hn.2]
                exact ET.set_ne hn.1
            have e := this h3 hl'
            rw [hr] at e
            simp only [ET.set_self, Option.some.injEq] at e
            subst e
            exact TSet.le_trans i2 u2
      · exact absurd hl hl'

theorem unifyGeneric_desc {fam : TSet} {ls : List Loc} {s s' : ET} (h : unifyGeneric fam ls s = .ok s') : Desc s' s := by
  cases ls with
  | nil => simp only [unifyGeneric, Res.ok_inj] at h; subst h; exact Desc.refl _
  | cons a ls =>
    simp only [unifyGeneric, Res.bind_ok, Res.ok_inj] at h
    obtain ⟨⟨n, s1⟩, h1, r, h2, rfl⟩ := h
    obtain ⟨i1, i2, i3⟩ := unifyInstances_desc h2
    obtain ⟨rfl, g2, g3, _⟩ := unifyTy_ok h1
    have d : Desc r.2 s := i1.trans (Desc.set g3)
    intro l
    by_cases hl : l ∈ a :: ls
    · rw [setAll_mem hl]
      by_cases hl' : l ∈ ls
      · exact oLe_trans (i3 l hl').1 (Desc.set g3 l)
      · rcases List.mem_cons.1 hl with rfl | hl
        · exact oLe_trans (b := some n) i2 g3
        · exact absurd hl hl'
    · rw [setAll_ne hl]; exact d l

theorem foldl_desc {α : Type} {f : ET → α → Res ET} {as : List α} {s s' : ET} (hf : ∀ s s' a, a ∈ as → f s a = .ok s' → Desc s' s)
    (h : Res.foldl f s as = .ok s') : Desc s' s := by
  induction as generalizing s with
  | nil => simp only [Res.foldl, Res.ok_inj] at h; subst h; exact Desc.refl _
  | cons a as ih =>
    simp only [Res.foldl, Res.bind_ok] at h
    obtain ⟨s1, h1, h2⟩ := h
    exact (ih (fun s s' b hb => hf s s' b (List.mem_cons_of_mem _ hb)) h2).trans (hf _ _ _ (List.mem_cons_self ..) h1)

theorem unifyCall_desc {env : Env} {f : String} {args : List Loc} {e : Loc} {s s' : ET} (h : unifyCall env f args e s = .ok s') :
    Desc s' s := by
  unfold unifyCall at h
  split at h
  · simp at h
  · split at h
    · simp only [Res.bind_ok] at h
      obtain ⟨s1, h1, s2, h2, h3⟩ := h
      refine (foldl_desc (fun _ _ _ _ h => unifyGeneric_desc h) h3).trans (Desc.trans ?_ (unifyArgs_desc h1))
      split at h2
      · rw [Res.ok_inj] at h2; subst h2; exact Desc.refl _
      · exact narrow_desc h2
    · simp at h

theorem unifyEntityArgs_desc {xs : List (Loc × TSet)} {s s' : ET} (h : unifyEntityArgs xs s = .ok s') : Desc s' s := by
  induction xs generalizing s with
  | nil => simp only [unifyEntityArgs, Res.ok_inj] at h; subst h; exact Desc.refl _
  | cons a xs ih =>
    obtain ⟨a, ty⟩ := a
    simp only [unifyEntityArgs, Res.bind_ok, Res.ofOption_ok] at h
    obtain ⟨n, h1, h2⟩ := h
    refine (ih h2).trans (Desc.trans (Desc.set ?_) (getOrInsert_desc a .any s))
    rw [getOrInsert_self]
    exact (TSet.unify_some h1).1

/-- Three types that are made equal. -/
theorem unify3 {a b c n : TSet} (h : ((a.unify b).bind fun t => t.unify c) = some n) : n.le a ∧ n.le b ∧ n.le c := by
  simp only [Option.bind_eq_some_iff] at h
  obtain ⟨m, h1, h2⟩ := h
  obtain ⟨g1, g2, _⟩ := TSet.unify_some h1
  obtain ⟨g3, g4, _⟩ := TSet.unify_some h2
  exact ⟨TSet.le_trans g3 g1, TSet.le_trans g3 g2, g4⟩

theorem getOrInsert_keep {e l : Loc} {ty t : TSet} {s : ET} (h : s l = some t) : (getOrInsert e ty s).2 l = some t := by
  unfold getOrInsert
  cases hs : s e with
  | some u => exact h
  | none =>
    have : l ≠ e := by rintro rfl; rw [hs] at h; simp at h
    simp [ET.set_ne this, h]

/-- A unification narrows types; that of a literal with a declared type sets its type. -/
theorem step_desc {env : Env} {rt : RT} {strict : Bool} {s s' : ET} {u : Unif} (h : u.step env rt strict s = .ok s')
    (hc : ∀ e ty, u = .ofConst e ty → ∀ n b, env.constTy e = some n → env.types n = some b → oLe (some (.base b)) (s e)) : Desc s' s := by
  cases u with
  | arg e p i =>
    simp only [Unif.step] at h
    split at h
    · split at h
      · exact narrow_desc h
      · simp at h
    · split at h
      · simp at h
      · split at h
        · exact narrow_desc h
        · simp at h
  | ofVar e x => simp only [Unif.step, Res.ok_inj] at h; subst h; exact Desc.refl _
  | ofConst e ty =>
    simp only [Unif.step] at h
    split at h
    · next n hn =>
      split at h
      · simp at h
      · next b hb =>
        simp only [Res.bind_ok, Res.ofOption_ok, Res.ok_inj] at h
        obtain ⟨t, ht, rfl⟩ := h
        have := TSet.unify_base_right ht
        subst this
        exact Desc.set (hc e ty rfl n b hn hb)
    · exact narrow_desc h
  | bin op a b e =>
    have poly : ∀ rules, arithRules op = some rules → (match arithRules op with
        | some rules => unifyPoly rules strict a b e s | none => .panic) = .ok s' → Desc s' s := by
      intro rules hr h
      rw [hr] at h
      exact unifyPoly_desc h
    have log : ((narrow e (.base .bool) s).bind fun s => (narrow a (.base .bool) s).bind fun s => narrow b (.base .bool) s) = .ok s' →
        Desc s' s := by
      intro h
      simp only [Res.bind_ok] at h
      obtain ⟨s1, h1, s2, h2, h3⟩ := h
      exact ((narrow_desc h3).trans (narrow_desc h2)).trans (narrow_desc h1)
    have eqs : ((narrow e (.base .bool) s).bind fun s =>
        let r1 := getOrInsert a .any s
        let r2 := getOrInsert b .any r1.2
        (Res.ofOption (r1.1.unify r2.1)).bind fun t => .ok (setAll r2.2 [a, b] t)) = .ok s' → Desc s' s := by
      intro h
      simp only [Res.bind_ok, Res.ofOption_ok, Res.ok_inj] at h
      obtain ⟨s1, h1, t, h2, rfl⟩ := h
      obtain ⟨u1, u2, _⟩ := TSet.unify_some h2
      refine Desc.trans (setAll_desc fun l hl => ?_)
        (((getOrInsert_desc b .any _).trans (getOrInsert_desc a .any _)).trans (narrow_desc h1))
      simp only [List.mem_cons, List.not_mem_nil, or_false] at hl
      rcases hl with rfl | rfl
      · rw [getOrInsert_keep (getOrInsert_self ..)]; exact u1
      · rw [getOrInsert_self]; exact u2
    cases op with
    | add => exact poly _ rfl h
    | sub => exact poly _ rfl h
    | mul => exact poly _ rfl h
    | div => exact poly _ rfl h
    | mod =>
      simp only [Unif.step, Res.bind_ok, Res.ofOption_ok, Res.ok_inj] at h
      obtain ⟨t, h, rfl⟩ := h
      obtain ⟨u1, u2, u3⟩ := unify3 h
      refine Desc.trans (setAll_desc fun l hl => ?_)
        (((getOrInsert_desc b .arith _).trans (getOrInsert_desc a .arith _)).trans (getOrInsert_desc e .arith _))
      simp only [List.mem_cons, List.not_mem_nil, or_false] at hl
      rcases hl with rfl | rfl | rfl
      · rw [getOrInsert_keep (getOrInsert_keep (getOrInsert_self ..))]; exact u3
      · rw [getOrInsert_keep (getOrInsert_self ..)]; exact u1
      · rw [getOrInsert_self]; exact u2
    | eq => exact eqs h
    | neq => exact eqs h
    | and => exact log h
    | or => exact log h
    | xor => exact log h
    | lt => exact unifyCmp_desc h
    | leq => exact unifyCmp_desc h
    | gt => exact unifyCmp_desc h
    | geq => exact unifyCmp_desc h
  | un op a e =>
    have pn : (let r0 := getOrInsert e .arith s
        let r1 := getOrInsert a .arith r0.2
        (Res.ofOption (r0.1.unify r1.1)).bind fun t => .ok (setAll r1.2 [e, a] t)) = .ok s' → Desc s' s := by
      intro h'
      simp only [Res.bind_ok, Res.ofOption_ok, Res.ok_inj] at h'
      obtain ⟨t, h', rfl⟩ := h'
      obtain ⟨u1, u2, _⟩ := TSet.unify_some h'
      refine Desc.trans (setAll_desc fun l hl => ?_) ((getOrInsert_desc a .arith _).trans (getOrInsert_desc e .arith _))
      simp only [List.mem_cons, List.not_mem_nil, or_false] at hl
      rcases hl with rfl | rfl
      · rw [getOrInsert_keep (getOrInsert_self ..)]; exact u1
      · rw [getOrInsert_self]; exact u2
    cases op with
    | pos => exact pn h
    | neg => exact pn h
    | not =>
      simp only [Unif.step, Res.bind_ok] at h
      obtain ⟨s1, h1, h2⟩ := h
      exact (narrow_desc h2).trans (narrow_desc h1)
    | cast n =>
      simp only [Unif.step] at h
      split at h
      · simp at h
      · simp only [Res.bind_ok] at h
        obtain ⟨s1, h1, h2⟩ := h
        exact (narrow_desc h2).trans (narrow_desc h1)
  | ite e c t f =>
    simp only [Unif.step, Res.bind_ok, Res.ofOption_ok, Res.ok_inj] at h
    obtain ⟨s1, h1, n, h, rfl⟩ := h
    obtain ⟨u1, u2, u3⟩ := unify3 h
    refine Desc.trans (setAll_desc fun l hl => ?_)
      ((((getOrInsert_desc f .any _).trans (getOrInsert_desc t .any _)).trans (getOrInsert_desc e .any _)).trans (narrow_desc h1))
    simp only [List.mem_cons, List.not_mem_nil, or_false] at hl
    rcases hl with rfl | rfl | rfl
    · rw [getOrInsert_keep (getOrInsert_keep (getOrInsert_self ..))]; exact u1
    · rw [getOrInsert_keep (getOrInsert_self ..)]; exact u2
    · rw [getOrInsert_self]; exact u3
  | call f args e => exact unifyCall_desc h
  | entity f args e =>
    simp only [Unif.step, Res.bind_ok] at h
    obtain ⟨s1, h1, h⟩ := h
    split at h
    · simp at h
    · split at h
      · exact (unifyEntityArgs_desc h).trans (narrow_desc h1)
      · simp at h

end Scallop.Ty
