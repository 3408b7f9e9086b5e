import Verif.Proof.TypeStep
import Mathlib.Algebra.Order.BigOperators.Group.List
import Mathlib.Algebra.Order.Group.Nat

/-! # The fixpoint of type inference ends -/

namespace Scallop.Ty

/-- The type that a location has because a declared constant is used there. -/
def DeclAt (env : Env) (l : Loc) (b : VTy) : Prop := ∃ n, env.constTy l = some n ∧ env.types n = some b

theorem DeclAt.unique {env : Env} {l : Loc} {b b' : VTy} (h : DeclAt env l b) (h' : DeclAt env l b') : b = b' := by
  obtain ⟨n, h1, h2⟩ := h
  obtain ⟨n', h1', h2'⟩ := h'
  rw [h1] at h1'; cases h1'
  rw [h2] at h2'; cases h2'; rfl

/-- The uses of declared constants in a context have their declared types. -/
def ConstInv (env : Env) (us : List Unif) (s : ET) : Prop :=
  ∀ e ty, Unif.ofConst e ty ∈ us → ∀ b, DeclAt env e b → s e = some (.base b)

theorem ConstInv.desc {env : Env} {us : List Unif} {s s' : ET} (h : ConstInv env us s) (d : Desc s' s) : ConstInv env us s' :=
  fun e ty he b hb => d.base (h e ty he b hb)

theorem step_keep {env : Env} {rt : RT} {strict : Bool} {s s' : ET} {u : Unif} (h : u.step env rt strict s = .ok s') {l : Loc} {b : VTy}
    (hd : DeclAt env l b) (hs : s l = some (.base b)) : s' l = some (.base b) := by
  by_cases hu : ∃ e ty n b', u = .ofConst e ty ∧ env.constTy e = some n ∧ env.types n = some b'
  · obtain ⟨e, ty, n, b', rfl, h1, h2⟩ := hu
    simp only [Unif.step, h1, h2, Res.bind_ok, Res.ofOption_ok, Res.ok_inj] at h
    obtain ⟨t, ht, rfl⟩ := h
    have := TSet.unify_base_right ht
    subst this
    by_cases hl : l = e
    · subst hl
      rw [hd.unique ⟨n, h1, h2⟩]
      exact ET.set_self
    · rw [ET.set_ne hl]; exact hs
  · exact (step_desc h fun e ty he n b hn hb => absurd ⟨e, ty, n, b, he, hn, hb⟩ hu).base hs

theorem step_const {env : Env} {rt : RT} {strict : Bool} {s s' : ET} {e : Loc} {ty : TSet}
    (h : (Unif.ofConst e ty).step env rt strict s = .ok s') {b : VTy} (hd : DeclAt env e b) : s' e = some (.base b) := by
  obtain ⟨n, h1, h2⟩ := hd
  simp only [Unif.step, h1, h2, Res.bind_ok, Res.ofOption_ok, Res.ok_inj] at h
  obtain ⟨t, ht, rfl⟩ := h
  have := TSet.unify_base_right ht
  subst this
  exact ET.set_self

theorem steps_keep {env : Env} {rt : RT} {strict : Bool} {us : List Unif} {s s' : ET}
    (h : Res.foldl (Unif.step env rt strict) s us = .ok s') {l : Loc} {b : VTy}
    (hd : DeclAt env l b) (hs : s l = some (.base b)) : s' l = some (.base b) := by
  induction us generalizing s with
  | nil => simp only [Res.foldl, Res.ok_inj] at h; subst h; exact hs
  | cons u us ih =>
    simp only [Res.foldl, Res.bind_ok] at h
    obtain ⟨s1, h1, h2⟩ := h
    exact ih h2 (step_keep h1 hd hs)

/-- After the unifications of a context, the declared constants in it have their types. -/
theorem steps_establish {env : Env} {rt : RT} {strict : Bool} {us : List Unif} {s s' : ET}
    (h : Res.foldl (Unif.step env rt strict) s us = .ok s') : ConstInv env us s' := by
  induction us generalizing s with
  | nil => intro e ty he; simp at he
  | cons u us ih =>
    simp only [Res.foldl, Res.bind_ok] at h
    obtain ⟨s1, h1, h2⟩ := h
    intro e ty he b hb
    rcases List.mem_cons.1 he with rfl | he
    · exact steps_keep h2 hb (step_const h1 hb)
    · exact ih h2 e ty he b hb

theorem steps_desc {env : Env} {rt : RT} {strict : Bool} {us : List Unif} {s s' : ET}
    (h : Res.foldl (Unif.step env rt strict) s us = .ok s') (hc : ConstInv env us s) : Desc s' s := by
  induction us generalizing s with
  | nil => simp only [Res.foldl, Res.ok_inj] at h; subst h; exact Desc.refl _
  | cons u us ih =>
    simp only [Res.foldl, Res.bind_ok] at h
    obtain ⟨s1, h1, h2⟩ := h
    have d : Desc s1 s := step_desc h1 fun e ty he n b hn hb => by
      subst he
      rw [hc e ty (List.mem_cons_self ..) b ⟨n, hn, hb⟩]; exact TSet.le_refl _
    have hc' : ConstInv env us s1 := ConstInv.desc (fun e ty he b hb => hc e ty (List.mem_cons_of_mem _ he) b hb) d
    exact (ih h2 hc').trans d

/-! ## Variables -/

theorem varTys_ok {c : Ctx} {s : ET} {xs : List String} {acc r : List (String × TSet)}
    (h : Res.foldl (fun (acc : List (String × TSet)) x => (Res.ofOption (c.varTy s x)).bind fun t => .ok (acc ++ [(x, t)])) acc xs = .ok r) :
    ∃ ts, r = acc ++ ts ∧ (∀ x ∈ xs, ∃ t, (x, t) ∈ ts) ∧ ∀ xt ∈ ts, xt.1 ∈ xs ∧ c.varTy s xt.1 = some xt.2 := by
  induction xs generalizing acc with
  | nil => simp only [Res.foldl, Res.ok_inj] at h; subst h; exact ⟨[], by simp⟩
  | cons x xs ih =>
    simp only [Res.foldl, Res.bind_ok, Res.ofOption_ok, Res.ok_inj] at h
    obtain ⟨acc', ⟨t, h1, rfl⟩, h2⟩ := h
    obtain ⟨ts, rfl, h3, h4⟩ := ih h2
    refine ⟨(x, t) :: ts, by simp, fun y hy => ?_, fun yt hyt => ?_⟩
    · rcases List.mem_cons.1 hy with rfl | hy
      · exact ⟨t, List.mem_cons_self ..⟩
      · obtain ⟨t', h'⟩ := h3 y hy
        exact ⟨t', List.mem_cons_of_mem _ h'⟩
    · rcases List.mem_cons.1 hyt with rfl | hyt
      · exact ⟨List.mem_cons_self .., h1⟩
      · exact ⟨List.mem_cons_of_mem _ (h4 yt hyt).1, (h4 yt hyt).2⟩

theorem writes {c : Ctx} {ts : List (String × TSet)} {s : ET} (l : Loc) :
    (ts.foldl (fun s' xt => setAll s' (c.varLocs xt.1) xt.2) s l = s l ∧ ∀ xt ∈ ts, l ∉ c.varLocs xt.1) ∨
    ∃ xt ∈ ts, l ∈ c.varLocs xt.1 ∧ ts.foldl (fun s' xt => setAll s' (c.varLocs xt.1) xt.2) s l = some xt.2 := by
  induction ts generalizing s with
  | nil => left; simp
  | cons xt ts ih =>
    simp only [List.foldl_cons]
    rcases ih (s := setAll s (c.varLocs xt.1) xt.2) with ⟨h1, h2⟩ | ⟨yt, h1, h2, h3⟩
    · by_cases hl : l ∈ c.varLocs xt.1
      · right
        exact ⟨xt, List.mem_cons_self .., hl, by rw [h1, setAll_mem hl]⟩
      · left
        refine ⟨by rw [h1, setAll_ne hl], fun yt hyt => ?_⟩
        rcases List.mem_cons.1 hyt with rfl | hyt
        · exact hl
        · exact h2 yt hyt
    · right
      exact ⟨yt, List.mem_cons_of_mem _ h1, h2, h3⟩

theorem propVars_ok {c : Ctx} {s s' : ET} (h : c.propVars s = .ok s') (l : Loc) :
    (s' l = s l ∧ ∀ x ∈ c.vars, l ∉ c.varLocs x) ∨
    ∃ x t, x ∈ c.vars ∧ l ∈ c.varLocs x ∧ c.varTy s x = some t ∧ s' l = some t := by
  simp only [Ctx.propVars, Res.bind_ok, Res.ok_inj] at h
  obtain ⟨ts, h1, rfl⟩ := h
  obtain ⟨ts', h2, h3, h4⟩ := varTys_ok h1
  simp only [List.nil_append] at h2
  subst h2
  rcases writes (c := c) (ts := ts) (s := s) l with ⟨g1, g2⟩ | ⟨xt, g1, g2, g3⟩
  · left
    refine ⟨g1, fun x hx hl => ?_⟩
    obtain ⟨t, ht⟩ := h3 x hx
    exact g2 (x, t) ht hl
  · right
    exact ⟨xt.1, xt.2, (h4 xt g1).1, g2, (h4 xt g1).2, g3⟩

theorem varTy_le {c : Ctx} {s : ET} {x : String} {t : TSet} (h : c.varTy s x = some t) {l : Loc} (hl : l ∈ c.varLocs x) :
    oLe (some t) (s l) := by
  cases hs : s l with
  | none => trivial
  | some o => exact (TSet.unifyAll_some h).1 o (List.mem_filterMap.2 ⟨l, hl, hs⟩)

theorem propVars_desc {c : Ctx} {s s' : ET} (h : c.propVars s = .ok s') : Desc s' s := by
  intro l
  rcases propVars_ok h l with ⟨h1, _⟩ | ⟨x, t, _, h2, h3, h4⟩
  · rw [h1]; exact oLe_refl _
  · rw [h4]; exact varTy_le h3 h2

/-! ## Rounds -/

/-- The unifications of all the contexts. -/
def allUnifs (cs : List Ctx) : List Unif := (cs.map Ctx.unifs).flatten

theorem round_desc {env : Env} {cs : List Ctx} {strict : Bool} {st st' : ET × RT} {c : Ctx} (h : c.round env cs strict st = .ok st')
    (hc : ConstInv env c.unifs st.1) : Desc st'.1 st.1 := by
  simp only [Ctx.round, Res.bind_ok, Res.ok_inj] at h
  obtain ⟨s1, h1, s2, h2, rt, h3, rfl⟩ := h
  exact (propVars_desc h2).trans (steps_desc h1 hc)

theorem round_keep {env : Env} {cs : List Ctx} {strict : Bool} {st st' : ET × RT} {c : Ctx} (h : c.round env cs strict st = .ok st')
    {l : Loc} {b : VTy} (hd : DeclAt env l b) (hs : st.1 l = some (.base b)) : st'.1 l = some (.base b) := by
  simp only [Ctx.round, Res.bind_ok, Res.ok_inj] at h
  obtain ⟨s1, h1, s2, h2, rt, h3, rfl⟩ := h
  exact (propVars_desc h2).base (steps_keep h1 hd hs)

theorem round_establish {env : Env} {cs : List Ctx} {strict : Bool} {st st' : ET × RT} {c : Ctx} (h : c.round env cs strict st = .ok st') :
    ConstInv env c.unifs st'.1 := by
  simp only [Ctx.round, Res.bind_ok, Res.ok_inj] at h
  obtain ⟨s1, h1, s2, h2, rt, h3, rfl⟩ := h
  exact (steps_establish h1).desc (propVars_desc h2)

theorem rounds_keep {env : Env} {cs cs' : List Ctx} {strict : Bool} {st st' : ET × RT}
    (h : Res.foldl (Ctx.round env cs strict) st cs' = .ok st')
    {l : Loc} {b : VTy} (hd : DeclAt env l b) (hs : st.1 l = some (.base b)) : st'.1 l = some (.base b) := by
  induction cs' generalizing st with
  | nil => simp only [Res.foldl, Res.ok_inj] at h; subst h; exact hs
  | cons c cs' ih =>
    simp only [Res.foldl, Res.bind_ok] at h
    obtain ⟨s1, h1, h2⟩ := h
    exact ih h2 (round_keep h1 hd hs)

theorem rounds_establish {env : Env} {cs cs' : List Ctx} {strict : Bool} {st st' : ET × RT}
    (h : Res.foldl (Ctx.round env cs strict) st cs' = .ok st') : ConstInv env (allUnifs cs') st'.1 := by
  induction cs' generalizing st with
  | nil => intro e ty he; simp [allUnifs] at he
  | cons c cs' ih =>
    simp only [Res.foldl, Res.bind_ok] at h
    obtain ⟨s1, h1, h2⟩ := h
    intro e ty he b hb
    simp only [allUnifs, List.map_cons, List.flatten_cons, List.mem_append] at he
    rcases he with he | he
    · exact rounds_keep h2 hb (round_establish h1 e ty he b hb)
    · exact ih h2 e ty he b hb

theorem rounds_desc {env : Env} {cs cs' : List Ctx} {strict : Bool} {st st' : ET × RT}
    (h : Res.foldl (Ctx.round env cs strict) st cs' = .ok st') (hc : ConstInv env (allUnifs cs') st.1) : Desc st'.1 st.1 := by
  induction cs' generalizing st with
  | nil => simp only [Res.foldl, Res.ok_inj] at h; subst h; exact Desc.refl _
  | cons c cs' ih =>
    simp only [Res.foldl, Res.bind_ok] at h
    obtain ⟨s1, h1, h2⟩ := h
    have d := round_desc h1 fun e ty he => hc e ty (by simp [allUnifs, he])
    exact (ih h2 (ConstInv.desc (fun e ty he => hc e ty (by
      simp only [allUnifs, List.map_cons, List.flatten_cons, List.mem_append]; exact Or.inr he)) d)).trans d

/-! ## No set of unsigned integer types -/

/-- No location has the type set of the unsigned integer types. -/
def NoU (s : ET) : Prop := ∀ l, s l ≠ some .unsigned

/-- No column has the type set of the unsigned integer types. -/
def NoURel (rt : RT) : Prop := ∀ p tys, rt p = some tys → TSet.unsigned ∉ tys

/-- An argument type is not the set of the unsigned integer types. -/
def ArgTy.noU : ArgTy → Prop
  | .generic _ => True
  | .set t => t ≠ .unsigned

/-- No foreign function has the type set of the unsigned integer types in its type. -/
def NoUEnv (env : Env) : Prop :=
  ∀ f ft, env.funs f = some ft → TSet.unsigned ∉ ft.generics ∧ ∀ i a, ft.argTy i = some a → a.noU

theorem NoU.set {s : ET} (h : NoU s) {e : Loc} {n : TSet} (hn : n ≠ .unsigned) : NoU (s.set e n) := by
  intro l
  unfold ET.set
  split
  · simpa using hn
  · exact h l

theorem NoU.setAll {s : ET} (h : NoU s) {ls : List Loc} {n : TSet} (hn : n ≠ .unsigned) : NoU (setAll s ls n) := by
  induction ls generalizing s with
  | nil => exact h
  | cons l ls ih => exact ih (h.set hn)

theorem unify_noU {a b c : TSet} (h : a.unify b = some c) (ha : a ≠ .unsigned) (hb : b ≠ .unsigned) : c ≠ .unsigned := by
  rcases (TSet.unify_some h).2.2 with rfl | rfl
  · exact ha
  · exact hb

theorem unifyTy_noU {e : Loc} {ty : TSet} {s : ET} {r : TSet × ET} (h : unifyTy e ty s = .ok r) (hs : NoU s) (ht : ty ≠ .unsigned) :
    NoU r.2 ∧ r.1 ≠ .unsigned := by
  obtain ⟨n, s'⟩ := r
  obtain ⟨rfl, _, _, h⟩ := unifyTy_ok h
  have : n ≠ .unsigned := unify_noU h ht (by
    cases he : s e with
    | none => exact ht
    | some t => rintro rfl; exact hs e he)
  exact ⟨hs.set this, this⟩

theorem narrow_noU {e : Loc} {ty : TSet} {s s' : ET} (h : narrow e ty s = .ok s') (hs : NoU s) (ht : ty ≠ .unsigned) : NoU s' := by
  simp only [narrow, Res.bind_ok, Res.ok_inj] at h
  obtain ⟨r, h, rfl⟩ := h
  exact (unifyTy_noU h hs ht).1

theorem getOrInsert_noU {e : Loc} {ty : TSet} {s : ET} (hs : NoU s) (ht : ty ≠ .unsigned) :
    NoU (getOrInsert e ty s).2 ∧ (getOrInsert e ty s).1 ≠ .unsigned := by
  unfold getOrInsert
  cases h : s e with
  | some t => exact ⟨hs, by rintro rfl; exact hs e h⟩
  | none => exact ⟨hs.set ht, ht⟩

theorem foldl_noU {α : Type} {f : ET → α → Res ET} {as : List α} {s s' : ET} (hf : ∀ s s' a, a ∈ as → f s a = .ok s' → NoU s → NoU s')
    (h : Res.foldl f s as = .ok s') (hs : NoU s) : NoU s' := by
  induction as generalizing s with
  | nil => simp only [Res.foldl, Res.ok_inj] at h; subst h; exact hs
  | cons a as ih =>
    simp only [Res.foldl, Res.bind_ok] at h
    obtain ⟨s1, h1, h2⟩ := h
    exact ih (fun s s' b hb => hf s s' b (List.mem_cons_of_mem _ hb)) h2 (hf _ _ _ (List.mem_cons_self ..) h1 hs)

theorem unifyInstances_noU {fam : TSet} {ls : List Loc} {agg : TSet} {s : ET} {r : TSet × ET}
    (h : unifyInstances fam ls agg s = .ok r) (hs : NoU s) (hf : fam ≠ .unsigned) (ha : agg ≠ .unsigned) : NoU r.2 ∧ r.1 ≠ .unsigned := by
  induction ls generalizing agg s with
  | nil => simp only [unifyInstances, Res.ok_inj] at h; subst h; exact ⟨hs, ha⟩
  | cons a ls ih =>
    simp only [unifyInstances, Res.bind_ok, Res.ofOption_ok] at h
    obtain ⟨q, h1, ag, h2, h3⟩ := h
    obtain ⟨g1, g2⟩ := unifyTy_noU h1 hs hf
    exact ih h3 g1 (unify_noU h2 ha g2)

theorem unifyGeneric_noU {fam : TSet} {ls : List Loc} {s s' : ET} (h : unifyGeneric fam ls s = .ok s') (hs : NoU s)
    (hf : fam ≠ .unsigned) : NoU s' := by
  cases ls with
  | nil => simp only [unifyGeneric, Res.ok_inj] at h; subst h; exact hs
  | cons a ls =>
    simp only [unifyGeneric, Res.bind_ok, Res.ok_inj] at h
    obtain ⟨q, h1, r, h2, rfl⟩ := h
    obtain ⟨g1, g2⟩ := unifyTy_noU h1 hs hf
    obtain ⟨g3, g4⟩ := unifyInstances_noU h2 g1 hf g2
    exact g3.setAll g4

theorem unifyArgs_noU {ft : FunTy} (hft : ∀ i a, ft.argTy i = some a → a.noU) {as : List Loc} {i : Nat} {s s' : ET}
    (h : unifyArgs ft i as s = .ok s') (hs : NoU s) : NoU s' := by
  induction as generalizing i s with
  | nil => simp only [unifyArgs, Res.ok_inj] at h; subst h; exact hs
  | cons a as ih =>
    simp only [unifyArgs] at h
    split at h
    · simp at h
    · exact ih h hs
    · next t ht =>
      simp only [Res.bind_ok] at h
      obtain ⟨s1, g1, g2⟩ := h
      exact ih g2 (narrow_noU g1 hs (hft i _ ht))

theorem unifyEntityArgs_noU {xs : List (Loc × TSet)} (hx : ∀ x ∈ xs, x.2 ≠ .unsigned) {s s' : ET}
    (h : unifyEntityArgs xs s = .ok s') (hs : NoU s) : NoU s' := by
  induction xs generalizing s with
  | nil => simp only [unifyEntityArgs, Res.ok_inj] at h; subst h; exact hs
  | cons a xs ih =>
    obtain ⟨a, ty⟩ := a
    simp only [unifyEntityArgs, Res.bind_ok, Res.ofOption_ok] at h
    obtain ⟨n, h1, h2⟩ := h
    obtain ⟨g1, g2⟩ := getOrInsert_noU (e := a) (ty := .any) hs (by simp)
    exact ih (fun x hx' => hx x (List.mem_cons_of_mem _ hx')) h2 (g1.set (unify_noU h1 g2 (hx _ (List.mem_cons_self ..))))

/-- The type set of a unification's constant is not that of the unsigned integer types. -/
def Unif.noU : Unif → Prop
  | .ofConst _ t => t ≠ .unsigned
  | _ => True

theorem unifyPoly_noU {rules : List (VTy × VTy × VTy)} {strict : Bool} {a b e : Loc} {s s' : ET}
    (h : unifyPoly rules strict a b e s = .ok s') (hs : NoU s) : NoU s' := by
  simp only [unifyPoly, Res.bind_ok] at h
  obtain ⟨r1, h1, r2, h2, r3, h3, h⟩ := h
  have d := (unifyTy_noU h3 (unifyTy_noU h2 (unifyTy_noU h1 hs (by simp)).1 (by simp)).1 (by simp)).1
  split at h
  · simp at h
  · split at h
    · simp only [Res.bind_ok] at h
      obtain ⟨s1, g1, s2, g2, g3⟩ := h
      exact narrow_noU g3 (narrow_noU g2 (narrow_noU g1 d (by simp)) (by simp)) (by simp)
    · rw [Res.ok_inj] at h; subst h; exact d

theorem unifyCmp_noU {strict : Bool} {a b e : Loc} {s s' : ET} (h : unifyCmp strict a b e s = .ok s') (hs : NoU s) : NoU s' := by
  simp only [unifyCmp, Res.bind_ok] at h
  obtain ⟨r1, h1, r2, h2, r3, h3, h⟩ := h
  have d := (unifyTy_noU h3 (unifyTy_noU h2 (unifyTy_noU h1 hs (by simp)).1 (by simp)).1 (by simp)).1
  split at h
  · simp at h
  · split at h
    · simp only [Res.bind_ok] at h
      obtain ⟨s1, g1, g2⟩ := h
      exact narrow_noU g2 (narrow_noU g1 d (by simp)) (by simp)
    · rw [Res.ok_inj] at h; subst h; exact d

theorem step_noU {env : Env} (he : NoUEnv env) {rt : RT} (hr : NoURel rt) {strict : Bool} {s s' : ET} {u : Unif} (hu : u.noU)
    (h : u.step env rt strict s = .ok s') (hs : NoU s) : NoU s' := by
  cases u with
  | arg e p i =>
    simp only [Unif.step] at h
    split at h
    · split at h
      · exact narrow_noU h hs (by simp)
      · simp at h
    · split at h
      · simp at h
      · next tys hp =>
        split at h
        · next t ht => exact narrow_noU h hs (by rintro rfl; exact hr p tys hp (List.mem_of_getElem? ht))
        · simp at h
  | ofVar e x => simp only [Unif.step, Res.ok_inj] at h; subst h; exact hs
  | ofConst e ty =>
    simp only [Unif.step] at h
    split at h
    · split at h
      · simp at h
      · simp only [Res.bind_ok, Res.ofOption_ok, Res.ok_inj] at h
        obtain ⟨t, ht, rfl⟩ := h
        have := TSet.unify_base_right ht
        subst this
        exact hs.set (by simp)
    · exact narrow_noU h hs hu
  | bin op a b e =>
    have log : ((narrow e (.base .bool) s).bind fun s => (narrow a (.base .bool) s).bind fun s => narrow b (.base .bool) s) = .ok s' →
        NoU s' := by
      intro h
      simp only [Res.bind_ok] at h
      obtain ⟨s1, h1, s2, h2, h3⟩ := h
      exact narrow_noU h3 (narrow_noU h2 (narrow_noU h1 hs (by simp)) (by simp)) (by simp)
    have eqs : ((narrow e (.base .bool) s).bind fun s =>
        let r1 := getOrInsert a .any s
        let r2 := getOrInsert b .any r1.2
        (Res.ofOption (r1.1.unify r2.1)).bind fun t => .ok (setAll r2.2 [a, b] t)) = .ok s' → NoU s' := by
      intro h
      simp only [Res.bind_ok, Res.ofOption_ok, Res.ok_inj] at h
      obtain ⟨s1, h1, t, h2, rfl⟩ := h
      have g0 := narrow_noU h1 hs (by simp)
      obtain ⟨g1, g2⟩ := getOrInsert_noU (e := a) (ty := .any) g0 (by simp)
      obtain ⟨g3, g4⟩ := getOrInsert_noU (e := b) (ty := .any) g1 (by simp)
      exact g3.setAll (unify_noU h2 g2 g4)
    cases op with
    | add => exact unifyPoly_noU h hs
    | sub => exact unifyPoly_noU h hs
    | mul => exact unifyPoly_noU h hs
    | div => exact unifyPoly_noU h hs
    | mod =>
      simp only [Unif.step, Res.bind_ok, Res.ofOption_ok, Res.ok_inj, Option.bind_eq_some_iff] at h
      obtain ⟨t, ⟨m, h1, h2⟩, rfl⟩ := h
      obtain ⟨g1, g2⟩ := getOrInsert_noU (e := e) (ty := .arith) hs (by simp)
      obtain ⟨g3, g4⟩ := getOrInsert_noU (e := a) (ty := .arith) g1 (by simp)
      obtain ⟨g5, g6⟩ := getOrInsert_noU (e := b) (ty := .arith) g3 (by simp)
      exact g5.setAll (unify_noU h2 (unify_noU h1 g4 g6) g2)
    | eq => exact eqs h
    | neq => exact eqs h
    | and => exact log h
    | or => exact log h
    | xor => exact log h
    | lt => exact unifyCmp_noU h hs
    | leq => exact unifyCmp_noU h hs
    | gt => exact unifyCmp_noU h hs
    | geq => exact unifyCmp_noU h hs
  | un op a e =>
    have pn : (let r0 := getOrInsert e .arith s
        let r1 := getOrInsert a .arith r0.2
        (Res.ofOption (r0.1.unify r1.1)).bind fun t => .ok (setAll r1.2 [e, a] t)) = .ok s' → NoU s' := by
      intro h'
      simp only [Res.bind_ok, Res.ofOption_ok, Res.ok_inj] at h'
      obtain ⟨t, h', rfl⟩ := h'
      obtain ⟨g1, g2⟩ := getOrInsert_noU (e := e) (ty := .arith) hs (by simp)
      obtain ⟨g3, g4⟩ := getOrInsert_noU (e := a) (ty := .arith) g1 (by simp)
      exact g3.setAll (unify_noU h' g2 g4)
    cases op with
    | pos => exact pn h
    | neg => exact pn h
    | not =>
      simp only [Unif.step, Res.bind_ok] at h
      obtain ⟨s1, h1, h2⟩ := h
      exact narrow_noU h2 (narrow_noU h1 hs (by simp)) (by simp)
    | cast n =>
      simp only [Unif.step] at h
      split at h
      · simp at h
      · simp only [Res.bind_ok] at h
        obtain ⟨s1, h1, h2⟩ := h
        exact narrow_noU h2 (narrow_noU h1 hs (by simp)) (by simp)
  | ite e c t f =>
    simp only [Unif.step, Res.bind_ok, Res.ofOption_ok, Res.ok_inj, Option.bind_eq_some_iff] at h
    obtain ⟨s1, h1, n, ⟨m, h2, h3⟩, rfl⟩ := h
    have g0 := narrow_noU h1 hs (by simp)
    obtain ⟨g1, g2⟩ := getOrInsert_noU (e := e) (ty := .any) g0 (by simp)
    obtain ⟨g3, g4⟩ := getOrInsert_noU (e := t) (ty := .any) g1 (by simp)
    obtain ⟨g5, g6⟩ := getOrInsert_noU (e := f) (ty := .any) g3 (by simp)
    exact g5.setAll (unify_noU h3 (unify_noU h2 g2 g4) g6)
  | call f args e =>
    simp only [Unif.step, unifyCall] at h
    split at h
    · simp at h
    · next ft hft =>
      split at h
      · simp only [Res.bind_ok] at h
        obtain ⟨s1, h1, s2, h2, h3⟩ := h
        have g1 := unifyArgs_noU (he f ft hft).2 h1 hs
        have g2 : NoU s2 := by
          split at h2
          · rw [Res.ok_inj] at h2; subst h2; exact g1
          · exact narrow_noU h2 g1 (by simp)
        refine foldl_noU (fun s s' a ha h hs => unifyGeneric_noU h hs ?_) h3 g2
        intro hu'
        exact (he f ft hft).1 (hu' ▸ List.fst_mem_of_mem_zipIdx ha)
      · simp at h
  | entity f args e =>
    simp only [Unif.step, Res.bind_ok] at h
    obtain ⟨s1, h1, h⟩ := h
    split at h
    · simp at h
    · next tys ht =>
      split at h
      · refine unifyEntityArgs_noU (fun x hx => ?_) h (narrow_noU h1 hs (by simp))
        intro hu'
        exact hr _ tys ht (List.mem_of_mem_drop (hu' ▸ (List.of_mem_zip hx).2))
      · simp at h

theorem propVars_noU {c : Ctx} {s s' : ET} (h : c.propVars s = .ok s') (hs : NoU s) : NoU s' := by
  intro l
  rcases propVars_ok h l with ⟨h1, _⟩ | ⟨x, t, _, _, h3, h4⟩
  · rw [h1]; exact hs l
  · rw [h4]
    rintro ⟨⟩
    have := (TSet.unifyAll_some h3).2
    obtain ⟨l', _, h⟩ := List.mem_filterMap.1 this
    exact hs l' h

theorem propRel_noU {cs : List Ctx} {s : ET} {rt rt' : RT} {pi : String × Nat} (h : propRel cs s rt pi = .ok rt') (hs : NoU s)
    (hr : NoURel rt) : NoURel rt' := by
  unfold propRel at h
  split at h
  · rw [Res.ok_inj] at h; subst h; exact hr
  · next t ts hts =>
    simp only [Res.bind_ok, Res.ofOption_ok] at h
    obtain ⟨n, h1, h⟩ := h
    split at h
    · rw [Res.ok_inj] at h; subst h; exact hr
    · next tys ht =>
      split at h
      · rw [Res.ok_inj] at h
        subst h
        intro p tys' hp
        simp only at hp
        split at hp
        · cases hp
          intro hm
          rcases List.mem_or_eq_of_mem_set hm with hm | hm
          · exact hr _ _ ht hm
          · have := (TSet.unifyAll_some h1).2
            rw [← hm, ← hts] at this
            obtain ⟨l', _, h⟩ := List.mem_filterMap.1 this
            exact hs l' h
        · exact hr p tys' hp
      · simp at h

theorem propRels_noU {cs : List Ctx} {s : ET} {rt rt' : RT} (h : propRels cs s rt = .ok rt') (hs : NoU s) (hr : NoURel rt) :
    NoURel rt' := by
  unfold propRels at h
  generalize relArgs cs = ps at h
  induction ps generalizing rt with
  | nil => simp only [Res.foldl, Res.ok_inj] at h; subst h; exact hr
  | cons p ps ih =>
    simp only [Res.foldl, Res.bind_ok] at h
    obtain ⟨rt1, h1, h2⟩ := h
    exact ih (propRel_noU h1 hs hr) h2

theorem rounds_noU {env : Env} (he : NoUEnv env) {cs cs' : List Ctx} {strict : Bool} {st st' : ET × RT}
    (hu : ∀ u ∈ allUnifs cs', u.noU)
    (h : Res.foldl (Ctx.round env cs strict) st cs' = .ok st') (hs : NoU st.1) (hr : NoURel st.2) : NoU st'.1 ∧ NoURel st'.2 := by
  induction cs' generalizing st with
  | nil => simp only [Res.foldl, Res.ok_inj] at h; subst h; exact ⟨hs, hr⟩
  | cons c cs' ih =>
    simp only [Res.foldl, Res.bind_ok] at h
    obtain ⟨s1, h1, h2⟩ := h
    simp only [Ctx.round, Res.bind_ok, Res.ok_inj] at h1
    obtain ⟨t1, g1, t2, g2, rt, g3, rfl⟩ := h1
    have k1 : NoU t1 := foldl_noU (fun s s' u hu' h hs => step_noU he hr (hu u (by simp [allUnifs, hu'])) h hs) g1 hs
    have k2 := propVars_noU g2 k1
    refine ih (fun u hu' => hu u ?_) h2 k2 (propRels_noU g3 k2 hr)
    simp only [allUnifs, List.map_cons, List.flatten_cons, List.mem_append]
    exact Or.inr hu'

/-! ## The measure -/

/-- How far the type of a location is from the bottom. -/
def oRank : Option TSet → Nat
  | none => 7
  | some t => t.rank

/-- The sum over the locations of a program. -/
def mu (cs : List Ctx) (s : ET) : Nat := ((allLocs cs).map fun l => oRank (s l)).sum

theorem oRank_le {a b : Option TSet} (h : oLe a b) : oRank a ≤ oRank b := by
  cases b with
  | none =>
    cases a with
    | none => exact Nat.le_refl _
    | some a => cases a <;> simp [oRank, TSet.rank]
  | some b =>
    cases a with
    | none => exact h.elim
    | some a => exact TSet.rank_le h

theorem oRank_lt {a b : Option TSet} (h : oLe a b) (hn : a ≠ b) : oRank a < oRank b := by
  cases b with
  | none =>
    cases a with
    | none => exact absurd rfl hn
    | some a => cases a <;> simp [oRank, TSet.rank]
  | some b =>
    cases a with
    | none => exact h.elim
    | some a =>
      rcases h with h | h
      · exact absurd (congrArg some h) hn
      · exact TSet.rank_lt h

theorem codeEq_self {a : TSet} (h : a ≠ .unsigned) : a.codeEq a = true := by cases a <;> simp_all [TSet.codeEq]

theorem sameTypes_self {cs : List Ctx} {s : ET} (h : NoU s) : sameTypes cs s s = true := by
  simp only [sameTypes, List.all_eq_true]
  intro l _
  cases hs : s l with
  | none => rfl
  | some a => exact codeEq_self (by rintro rfl; exact h l hs)

theorem mu_lt {cs : List Ctx} {s' s : ET} (d : Desc s' s) (hu : NoU s) (h : sameTypes cs s s' ≠ true) : mu cs s' < mu cs s := by
  have : ∃ l ∈ allLocs cs, s' l ≠ s l := by
    by_contra hc
    apply h
    simp only [sameTypes, List.all_eq_true]
    intro l hl
    have e : s' l = s l := by
      by_contra he
      exact hc ⟨l, hl, he⟩
    rw [e]
    cases hs : s l with
    | none => rfl
    | some a => exact codeEq_self (by rintro rfl; exact hu l hs)
  obtain ⟨l, hl, hn⟩ := this
  unfold mu
  exact List.sum_lt_sum _ _ (fun i _ => oRank_le (d i)) ⟨l, hl, oRank_lt (d l) hn⟩

theorem loop_ends_aux {env : Env} (he : NoUEnv env) {cs : List Ctx} (hu : ∀ u ∈ allUnifs cs, u.noU) (fuel : Nat) (st : ET × RT)
    (hc : ConstInv env (allUnifs cs) st.1) (hs : NoU st.1) (hr : NoURel st.2) (hf : mu cs st.1 < fuel) :
    loop env cs fuel st ≠ .running := by
  induction fuel generalizing st with
  | zero => omega
  | succ fuel ih =>
    simp only [loop]
    cases hp : pass env cs st with
    | error => simp
    | panic => simp
    | ok st' =>
      simp only
      split
      · simp
      · next hsame =>
        have d := rounds_desc hp hc
        obtain ⟨g1, g2⟩ := rounds_noU he hu hp hs hr
        have := mu_lt d hs hsame
        exact ih st' (hc.desc d) g1 g2 (by omega)

theorem mu_bound (cs : List Ctx) (s : ET) : mu cs s ≤ 7 * (allLocs cs).length := by
  unfold mu
  induction allLocs cs with
  | nil => simp
  | cons l ls ih =>
    have : oRank (s l) ≤ 7 := by
      cases h : s l with
      | none => simp [oRank]
      | some a => cases a <;> simp [oRank, TSet.rank]
    simp only [List.map_cons, List.sum_cons, List.length_cons]
    omega

theorem loop_ends {env : Env} (he : NoUEnv env) {cs : List Ctx} (hu : ∀ u ∈ allUnifs cs, u.noU) (rt : RT) (hr : NoURel rt)
    {fuel : Nat} (hf : 7 * (allLocs cs).length + 1 < fuel) : loop env cs fuel (fun _ => none, rt) ≠ .running := by
  obtain ⟨f, rfl⟩ : ∃ f, fuel = f + 1 := ⟨fuel - 1, by omega⟩
  simp only [loop]
  cases hp : pass env cs (fun _ => none, rt) with
  | error => simp
  | panic => simp
  | ok st' =>
    simp only
    split
    · simp
    · obtain ⟨g1, g2⟩ := rounds_noU he hu hp (fun _ => by simp) hr
      have := mu_bound cs st'.1
      exact loop_ends_aux he hu f st' (rounds_establish hp) g1 g2 (by omega)

end Scallop.Ty
