import Verif.Proof.TypeKeep
import Verif.Spec.TypeInfer

/-! # What holds when the last step of type inference changes nothing -/

namespace Scallop.Ty

theorem Desc.sandwich {s t : ET} (h1 : Desc t s) (h2 : Desc s t) : t = s := h1.antisymm h2

/-- What a type assignment satisfies when a strict unification leaves it as it is. -/
def Unif.Sat (env : Env) (s : ET) : Unif → Prop
  | .arg e p i => (∃ t, s e = some t) ∧ ∀ tys, env.preds p = some tys → ∃ t, tys[i]? = some t ∧ s e = some (.base t)
  | .ofVar _ _ => True
  | .ofConst e ty => ∃ t, s e = some t ∧ t.le ty
  | .bin op a b e =>
    match op with
    | .add | .sub | .mul | .div => ∃ rules t1 t2 te, arithRules op = some rules ∧ (t1, t2, te) ∈ rules ∧ s a = some (.base t1) ∧
        s b = some (.base t2) ∧ s e = some (.base te)
    | .mod => ∃ t, s a = some t ∧ s b = some t ∧ s e = some t
    | .eq | .neq => ∃ t, s a = some t ∧ s b = some t ∧ s e = some (.base .bool)
    | .and | .or | .xor => s a = some (.base .bool) ∧ s b = some (.base .bool) ∧ s e = some (.base .bool)
    | .lt | .leq | .gt | .geq => ∃ t1 t2, (t1, t2) ∈ cmpRules ∧ s a = some (.base t1) ∧ s b = some (.base t2) ∧ s e = some (.base .bool)
  | .un op a e =>
    match op with
    | .pos | .neg => ∃ t, s a = some t ∧ s e = some t
    | .not => s a = some (.base .bool) ∧ s e = some (.base .bool)
    | .cast n => ∃ b t, env.types n = some b ∧ s a = some t ∧ s e = some (.base b)
  | .ite e c t f => c ∉ [e, t, f] → s c = some (.base .bool) ∧ ∃ ty, s e = some ty ∧ s t = some ty ∧ s f = some ty
  | .call f args e => ∃ ft, env.funs f = some ft ∧ ft.validArity args.length = true ∧
      (∀ i a t, args[i]? = some a → ft.argTy i = some (.set t) → ∃ ta, s a = some ta ∧ ta.le t) ∧
      (∀ t, ft.ret = .base t → s e = some (.base t)) ∧
      ∀ k fam, ft.generics[k]? = some fam → ∃ t, t.le fam ∧ ∀ l ∈ instances ft args e k, s l = some t
  | .entity _ _ e => s e = some (.base .entity)

theorem narrow_base {e : Loc} {t : VTy} {s s' : ET} (h : narrow e (.base t) s = .ok s') : s' e = some (.base t) := by
  obtain ⟨n, h1, h2⟩ := narrow_self h
  rw [h1, TSet.le_base h2]

theorem unifyArgs_sat {ft : FunTy} {as : List Loc} {j : Nat} {s : ET} (h : unifyArgs ft j as s = .ok s) :
    ∀ i a t, as[i]? = some a → ft.argTy (j + i) = some (.set t) → ∃ ta, s a = some ta ∧ ta.le t := by
  induction as generalizing j with
  | nil => intro i a t hi; simp at hi
  | cons a as ih =>
    intro i a' t hi ht
    simp only [unifyArgs] at h
    split at h
    · simp at h
    · next k hk =>
      cases i with
      | zero => simp only [Nat.add_zero] at ht; rw [hk] at ht; simp at ht
      | succ i =>
        simp only [List.getElem?_cons_succ] at hi
        exact ih h i a' t hi (by rw [← ht]; congr 1; omega)
    · next t' hk =>
      simp only [Res.bind_ok] at h
      obtain ⟨s1, g1, g2⟩ := h
      obtain rfl : s1 = s := Desc.sandwich (narrow_desc g1) (unifyArgs_desc g2)
      cases i with
      | zero =>
        simp only [Nat.add_zero] at ht
        rw [hk] at ht
        simp only [Option.some.injEq, ArgTy.set.injEq] at ht
        subst ht
        simp only [List.getElem?_cons_zero, Option.some.injEq] at hi
        subst hi
        exact narrow_self g1
      | succ i =>
        simp only [List.getElem?_cons_succ] at hi
        exact ih g2 i a' t hi (by rw [← ht]; congr 1; omega)

theorem unifyInstances_le {fam : TSet} {ls : List Loc} {agg : TSet} {s : ET} {r : TSet × ET}
    (h : unifyInstances fam ls agg s = .ok r) : r.1.le agg := by
  induction ls generalizing agg s with
  | nil => simp only [unifyInstances, Res.ok_inj] at h; subst h; exact TSet.le_refl _
  | cons a ls ih =>
    simp only [unifyInstances, Res.bind_ok, Res.ofOption_ok] at h
    obtain ⟨q, h1, ag, h2, h3⟩ := h
    exact TSet.le_trans (ih h3) (TSet.unify_some h2).1

theorem unifyGeneric_sat {fam : TSet} {ls : List Loc} {s s' : ET} (h : unifyGeneric fam ls s = .ok s') :
    ∃ t, t.le fam ∧ ∀ l ∈ ls, s' l = some t := by
  cases ls with
  | nil => exact ⟨fam, TSet.le_refl _, by simp⟩
  | cons a ls =>
    simp only [unifyGeneric, Res.bind_ok, Res.ok_inj] at h
    obtain ⟨⟨n, q⟩, h1, r, h2, rfl⟩ := h
    obtain ⟨_, h3, _⟩ := unifyTy_ok h1
    exact ⟨r.1, TSet.le_trans (unifyInstances_le h2) h3, fun l hl => setAll_mem hl⟩

theorem foldl_same {α : Type} {f : ET → α → Res ET} {as : List α} {s : ET} (hf : ∀ s s' a, a ∈ as → f s a = .ok s' → Desc s' s)
    (h : Res.foldl f s as = .ok s) : ∀ a ∈ as, f s a = .ok s := by
  induction as with
  | nil => simp
  | cons a as ih =>
    simp only [Res.foldl, Res.bind_ok] at h
    obtain ⟨s1, h1, h2⟩ := h
    obtain rfl : s1 = s := Desc.sandwich (hf _ _ _ (List.mem_cons_self ..) h1)
      (foldl_desc (fun s s' b hb => hf s s' b (List.mem_cons_of_mem _ hb)) h2)
    intro b hb
    rcases List.mem_cons.1 hb with rfl | hb
    · exact h1
    · exact ih (fun s s' b hb => hf s s' b (List.mem_cons_of_mem _ hb)) h2 b hb

theorem unifyPoly_sat {rules : List (VTy × VTy × VTy)} {a b e : Loc} {s s' : ET} (h : unifyPoly rules true a b e s = .ok s') :
    ∃ t1 t2 te, (t1, t2, te) ∈ rules ∧ s' a = some (.base t1) ∧ s' b = some (.base t2) ∧ s' e = some (.base te) := by
  simp only [unifyPoly, Res.bind_ok] at h
  obtain ⟨r1, h1, r2, h2, r3, h3, h⟩ := h
  split at h
  · simp at h
  · next t1 t2 te rest hr =>
    simp only [Bool.or_true, if_true, Res.bind_ok] at h
    obtain ⟨s1, g1, s2, g2, g3⟩ := h
    refine ⟨t1, t2, te, ?_, (narrow_desc g3).base ((narrow_desc g2).base (narrow_base g1)), (narrow_desc g3).base (narrow_base g2), narrow_base g3⟩
    have : (t1, t2, te) ∈ rules.filter (fun r => r1.1.contains r.1 && r2.1.contains r.2.1 && r3.1.contains r.2.2) := by
      rw [hr]; exact List.mem_cons_self ..
    exact (List.mem_filter.1 this).1

theorem unifyCmp_sat {a b e : Loc} {s s' : ET} (h : unifyCmp true a b e s = .ok s') :
    ∃ t1 t2, (t1, t2) ∈ cmpRules ∧ s' a = some (.base t1) ∧ s' b = some (.base t2) ∧ s' e = some (.base .bool) := by
  simp only [unifyCmp, Res.bind_ok] at h
  obtain ⟨r0, h0, r1, h1, r2, h2, h⟩ := h
  split at h
  · simp at h
  · next t1 t2 rest hr =>
    simp only [Bool.or_true, if_true, Res.bind_ok] at h
    obtain ⟨s1, g1, g2⟩ := h
    refine ⟨t1, t2, ?_, (narrow_desc g2).base (narrow_base g1), narrow_base g2, ?_⟩
    · have : (t1, t2) ∈ cmpRules.filter (fun r => r1.1.contains r.1 && r2.1.contains r.2) := by rw [hr]; exact List.mem_cons_self ..
      exact (List.mem_filter.1 this).1
    · have h0' : narrow e (.base .bool) s = .ok r0.2 := by simp only [narrow, Res.bind_ok, Res.ok_inj]; exact ⟨r0, h0, rfl⟩
      exact (narrow_desc g2).base ((narrow_desc g1).base ((unifyTy_desc h2).base ((unifyTy_desc h1).base (narrow_base h0'))))

theorem step_sat {env : Env} {rt : RT} {s : ET} {u : Unif} (h : u.step env rt true s = .ok s) : u.Sat env s := by
  cases u with
  | arg e p i =>
    simp only [Unif.step] at h
    split at h
    · next tys hp =>
      split at h
      · next t ht =>
        refine ⟨⟨_, narrow_base h⟩, fun tys' h' => ?_⟩
        rw [hp] at h'
        simp only [Option.some.injEq] at h'
        subst h'
        exact ⟨t, ht, narrow_base h⟩
      · simp at h
    · next hp =>
      split at h
      · simp at h
      · split at h
        · obtain ⟨n, h1, _⟩ := narrow_self h
          exact ⟨⟨n, h1⟩, fun tys' h' => by rw [hp] at h'; simp at h'⟩
        · simp at h
  | ofVar e x => trivial
  | ofConst e ty =>
    simp only [Unif.step] at h
    split at h
    · split at h
      · simp at h
      · simp only [Res.bind_ok, Res.ofOption_ok, Res.ok_inj] at h
        obtain ⟨t, ht, hs⟩ := h
        exact ⟨t, by rw [← hs]; exact ET.set_self, (TSet.unify_some ht).1⟩
    · exact narrow_self h
  | bin op a b e =>
    have log : ((narrow e (.base .bool) s).bind fun s => (narrow a (.base .bool) s).bind fun s => narrow b (.base .bool) s) = .ok s →
        s a = some (.base .bool) ∧ s b = some (.base .bool) ∧ s e = some (.base .bool) := by
      intro h
      simp only [Res.bind_ok] at h
      obtain ⟨s1, h1, s2, h2, h3⟩ := h
      exact ⟨(narrow_desc h3).base (narrow_base h2), narrow_base h3, (narrow_desc h3).base ((narrow_desc h2).base (narrow_base h1))⟩
    have eqs : ((narrow e (.base .bool) s).bind fun s =>
        let r1 := getOrInsert a .any s
        let r2 := getOrInsert b .any r1.2
        (Res.ofOption (r1.1.unify r2.1)).bind fun t => .ok (setAll r2.2 [a, b] t)) = .ok s →
        ∃ t, s a = some t ∧ s b = some t ∧ s e = some (.base .bool) := by
      intro h
      simp only [Res.bind_ok, Res.ofOption_ok, Res.ok_inj] at h
      obtain ⟨s1, h1, t, h2, h3⟩ := h
      have d := getOrInsert_desc b .any (getOrInsert a .any s1).2
      have d' := getOrInsert_desc a .any s1
      refine ⟨t, by rw [← h3]; exact setAll_mem (by simp), by rw [← h3]; exact setAll_mem (by simp), ?_⟩
      have e1 : (getOrInsert b .any (getOrInsert a .any s1).2).2 e = some (.base .bool) := d.base (d'.base (narrow_base h1))
      obtain ⟨u1, u2, _⟩ := TSet.unify_some h2
      have d3 : Desc s (getOrInsert b .any (getOrInsert a .any s1).2).2 := by
        have : Desc (setAll (getOrInsert b .any (getOrInsert a .any s1).2).2 [a, b] t) (getOrInsert b .any (getOrInsert a .any s1).2).2 := by
          apply setAll_desc
          intro l hl
          simp only [List.mem_cons, List.not_mem_nil, or_false] at hl
          rcases hl with rfl | rfl
          · rw [getOrInsert_keep (getOrInsert_self l .any s1)]; exact u1
          · rw [getOrInsert_self]; exact u2
        rw [h3] at this; exact this
      exact d3.base e1
    cases op with
    | add => obtain ⟨t1, t2, te, h⟩ := unifyPoly_sat h; exact ⟨_, t1, t2, te, rfl, h⟩
    | sub => obtain ⟨t1, t2, te, h⟩ := unifyPoly_sat h; exact ⟨_, t1, t2, te, rfl, h⟩
    | mul => obtain ⟨t1, t2, te, h⟩ := unifyPoly_sat h; exact ⟨_, t1, t2, te, rfl, h⟩
    | div => obtain ⟨t1, t2, te, h⟩ := unifyPoly_sat h; exact ⟨_, t1, t2, te, rfl, h⟩
    | mod =>
      simp only [Unif.step, Res.bind_ok, Res.ofOption_ok, Res.ok_inj, Option.bind_eq_some_iff] at h
      obtain ⟨t, ⟨m, h1, h2⟩, h3⟩ := h
      refine ⟨t, ?_, ?_, ?_⟩ <;> · rw [← h3]; exact setAll_mem (by simp)
    | eq => exact eqs h
    | neq => exact eqs h
    | and => exact log h
    | or => exact log h
    | xor => exact log h
    | lt => exact unifyCmp_sat h
    | leq => exact unifyCmp_sat h
    | gt => exact unifyCmp_sat h
    | geq => exact unifyCmp_sat h
  | un op a e =>
    have pn : (let r0 := getOrInsert e .arith s
        let r1 := getOrInsert a .arith r0.2
        (Res.ofOption (r0.1.unify r1.1)).bind fun t => .ok (setAll r1.2 [e, a] t)) = .ok s → ∃ t, s a = some t ∧ s e = some t := by
      intro h'
      simp only [Res.bind_ok, Res.ofOption_ok, Res.ok_inj] at h'
      obtain ⟨t, _, h'⟩ := h'
      refine ⟨t, ?_, ?_⟩ <;> · rw [← h']; exact setAll_mem (by simp)
    cases op with
    | pos => exact pn h
    | neg => exact pn h
    | not =>
      simp only [Unif.step, Res.bind_ok] at h
      obtain ⟨s1, h1, h2⟩ := h
      exact ⟨narrow_base h2, (narrow_desc h2).base (narrow_base h1)⟩
    | cast n =>
      simp only [Unif.step] at h
      split at h
      · simp at h
      · next b hb =>
        simp only [Res.bind_ok] at h
        obtain ⟨s1, h1, h2⟩ := h
        obtain ⟨t, h3, _⟩ := narrow_self h2
        exact ⟨b, t, hb, h3, (narrow_desc h2).base (narrow_base h1)⟩
  | ite e c t f =>
    intro hc
    simp only [Unif.step, Res.bind_ok, Res.ofOption_ok, Res.ok_inj, Option.bind_eq_some_iff] at h
    obtain ⟨s1, h1, n, ⟨m, h2, h3⟩, h4⟩ := h
    refine ⟨?_, n, ?_, ?_, ?_⟩
    · rw [← h4, setAll_ne hc]
      exact getOrInsert_keep (getOrInsert_keep (getOrInsert_keep (narrow_base h1)))
    all_goals · rw [← h4]; exact setAll_mem (by simp)
  | call f args e =>
    simp only [Unif.step, unifyCall] at h
    split at h
    · simp at h
    · next ft hft =>
      split at h
      · next hv =>
        simp only [Res.bind_ok] at h
        obtain ⟨s1, h1, s2, h2, h3⟩ := h
        have d3 : Desc s s2 := foldl_desc (fun _ _ _ _ h => unifyGeneric_desc h) h3
        have d2 : Desc s2 s1 := by
          split at h2
          · rw [Res.ok_inj] at h2; subst h2; exact Desc.refl _
          · exact narrow_desc h2
        have d1 := unifyArgs_desc h1
        obtain rfl : s1 = s := Desc.sandwich d1 (d3.trans d2)
        obtain rfl : s2 = s1 := Desc.sandwich d2 d3
        refine ⟨ft, hft, hv, fun i a t hi ht => unifyArgs_sat h1 i a t hi (by simpa using ht), fun t ht => ?_, fun k fam hk => ?_⟩
        · rw [ht] at h2
          exact narrow_base h2
        · have := foldl_same (fun _ _ _ _ h => unifyGeneric_desc h) h3 (fam, k) (List.mem_zipIdx_iff_getElem?.2 hk)
          exact unifyGeneric_sat this
      · simp at h
  | entity f args e =>
    simp only [Unif.step, Res.bind_ok] at h
    obtain ⟨s1, h1, h⟩ := h
    split at h
    · simp at h
    · split at h
      · exact (unifyEntityArgs_desc h).base (narrow_base h1)
      · simp at h

/-! ## Columns -/

/-- The relation types that all the arguments of a column agree with. -/
def colTy (cs : List Ctx) (s : ET) (p : String) (i : Nat) : Option TSet := TSet.unifyAll ((relLocs cs p i).filterMap s)

theorem propRel_none {cs : List Ctx} {s : ET} {rt rt' : RT} {qj : String × Nat} (h : propRel cs s rt qj = .ok rt') {p : String} :
    (rt p).isSome = (rt' p).isSome ∧ ∀ tys, rt p = some tys → ∀ tys', rt' p = some tys' → tys.length = tys'.length := by
  unfold propRel at h
  split at h
  · rw [Res.ok_inj] at h; subst h; exact ⟨rfl, fun _ h1 _ h2 => by rw [h1] at h2; cases h2; rfl⟩
  · simp only [Res.bind_ok, Res.ofOption_ok] at h
    obtain ⟨n, _, h⟩ := h
    split at h
    · rw [Res.ok_inj] at h; subst h; exact ⟨rfl, fun _ h1 _ h2 => by rw [h1] at h2; cases h2; rfl⟩
    · next tys ht =>
      split at h
      · rw [Res.ok_inj] at h
        subst h
        by_cases hp : p = qj.1
        · subst hp
          simp only [ht, if_true, Option.isSome_some, true_and]
          intro _ h1 _ h2
          cases h1; cases h2; simp
        · simp only [if_neg hp, true_and]
          intro _ h1 _ h2
          rw [h1] at h2; cases h2; rfl
      · simp at h

theorem propRel_keep {cs : List Ctx} {s : ET} {rt rt' : RT} {qj : String × Nat} (h : propRel cs s rt qj = .ok rt') {p : String} {i : Nat}
    {n : TSet} (hn : colTy cs s p i = some n) {tys : List TSet} (hp : rt p = some tys) (hi : tys[i]? = some n) :
    ∃ tys', rt' p = some tys' ∧ tys'[i]? = some n := by
  unfold propRel at h
  split at h
  · rw [Res.ok_inj] at h; subst h; exact ⟨tys, hp, hi⟩
  · next t ts hts =>
    simp only [Res.bind_ok, Res.ofOption_ok] at h
    obtain ⟨m, hm, h⟩ := h
    split at h
    · rw [Res.ok_inj] at h; subst h; exact ⟨tys, hp, hi⟩
    · next tys1 ht =>
      split at h
      · next hlt =>
        rw [Res.ok_inj] at h
        subst h
        by_cases hpq : p = qj.1
        · subst hpq
          rw [ht] at hp
          cases hp
          simp only [if_true]
          refine ⟨_, rfl, ?_⟩
          by_cases hij : qj.2 = i
          · subst hij
            rw [List.getElem?_set_self hlt]
            rw [← hts] at hm
            unfold colTy at hn
            rw [hn] at hm
            exact hm.symm
          · rw [List.getElem?_set_ne hij]; exact hi
        · simp only [if_neg hpq]
          exact ⟨tys, hp, hi⟩
      · simp at h

theorem propRel_set {cs : List Ctx} {s : ET} {rt rt' : RT} {p : String} {i : Nat} (h : propRel cs s rt (p, i) = .ok rt')
    {n : TSet} (hn : colTy cs s p i = some n) {tys : List TSet} (hp : rt p = some tys) :
    ∃ tys', rt' p = some tys' ∧ tys'[i]? = some n := by
  unfold propRel at h
  split at h
  · next hts => simp only at hts; unfold colTy at hn; rw [hts] at hn; simp [TSet.unifyAll] at hn
  · next t ts hts =>
    simp only [Res.bind_ok, Res.ofOption_ok] at h hts
    obtain ⟨m, hm, h⟩ := h
    rw [hp] at h
    simp only at h
    split at h
    · next hlt =>
      rw [Res.ok_inj] at h
      subst h
      simp only [if_true]
      refine ⟨_, rfl, ?_⟩
      rw [List.getElem?_set_self hlt]
      rw [← hts] at hm
      unfold colTy at hn
      rw [hn] at hm
      exact hm.symm
    · simp at h

theorem propRels_keep {cs : List Ctx} {s : ET} {ps : List (String × Nat)} {rt rt' : RT} (h : Res.foldl (propRel cs s) rt ps = .ok rt')
    {p : String} {i : Nat} {n : TSet} (hn : colTy cs s p i = some n) {tys : List TSet} (hp : rt p = some tys) (hi : tys[i]? = some n) :
    ∃ tys', rt' p = some tys' ∧ tys'[i]? = some n := by
  induction ps generalizing rt tys with
  | nil => simp only [Res.foldl, Res.ok_inj] at h; subst h; exact ⟨tys, hp, hi⟩
  | cons q ps ih =>
    simp only [Res.foldl, Res.bind_ok] at h
    obtain ⟨rt1, h1, h2⟩ := h
    obtain ⟨tys1, g1, g2⟩ := propRel_keep h1 hn hp hi
    exact ih h2 g1 g2

theorem propRels_set {cs : List Ctx} {s : ET} {ps : List (String × Nat)} {rt rt' : RT} (h : Res.foldl (propRel cs s) rt ps = .ok rt')
    {p : String} {i : Nat} (hm : (p, i) ∈ ps) {n : TSet} (hn : colTy cs s p i = some n) {tys : List TSet} (hp : rt p = some tys) :
    ∃ tys', rt' p = some tys' ∧ tys'[i]? = some n := by
  induction ps generalizing rt tys with
  | nil => simp at hm
  | cons q ps ih =>
    simp only [Res.foldl, Res.bind_ok] at h
    obtain ⟨rt1, h1, h2⟩ := h
    rcases List.mem_cons.1 hm with rfl | hm
    · obtain ⟨tys1, g1, g2⟩ := propRel_set h1 hn hp
      exact propRels_keep h2 hn g1 g2
    · have := (propRel_none h1 (p := p)).1
      rw [hp] at this
      simp only [Option.isSome_some] at this
      obtain ⟨tys1, g1⟩ := Option.isSome_iff_exists.1 this.symm
      exact ih h2 hm g1

/-- A column that is set stays set. -/
def ColsSet (cs : List Ctx) (s : ET) (rt : RT) : Prop :=
  ∀ p i, (p, i) ∈ relArgs cs → ∀ n, colTy cs s p i = some n → ∀ tys, rt p = some tys → tys[i]? = some n

theorem propRels_cols {cs : List Ctx} {s : ET} {rt rt' : RT} (h : propRels cs s rt = .ok rt') : ColsSet cs s rt' := by
  intro p i hp n hn tys ht
  cases hr : rt p with
  | some tys0 =>
    obtain ⟨tys', h1, h2⟩ := propRels_set h hp hn hr
    rw [h1] at ht; cases ht; exact h2
  | none =>
    exfalso
    have : ∀ (ps : List (String × Nat)) (rt rt' : RT), Res.foldl (propRel cs s) rt ps = .ok rt' → rt p = none → rt' p = none := by
      intro ps
      induction ps with
      | nil => intro rt rt' h hr; simp only [Res.foldl, Res.ok_inj] at h; subst h; exact hr
      | cons q ps ih =>
        intro rt rt' h hr
        simp only [Res.foldl, Res.bind_ok] at h
        obtain ⟨rt1, h1, h2⟩ := h
        refine ih rt1 rt' h2 ?_
        have := (propRel_none h1 (p := p)).1
        rw [hr] at this
        cases h : rt1 p with
        | none => rfl
        | some x => rw [h] at this; simp at this
    rw [this _ rt rt' h hr] at ht
    simp at ht

/-! ## The fixed point -/

/-- What holds when the last step of inference leaves the types as they are. -/
structure Fixed (env : Env) (cs : List Ctx) (s : ET) (rt : RT) : Prop where
  sat : ∀ c ∈ cs, ∀ u ∈ c.unifs, u.Sat env s
  arg : ∀ c ∈ cs, ∀ e p i, Unif.arg e p i ∈ c.unifs → env.preds p = none → ∃ tys t, rt p = some tys ∧ tys[i]? = some t ∧ s e = some t
  vars : ∀ c ∈ cs, c.propVars s = .ok s
  cast : ∀ c ∈ cs, c.checkCast env s = .ok ()
  constraint : ∀ c ∈ cs, c.checkConstraint s = .ok ()

theorem steps_same {env : Env} {rt : RT} {us : List Unif} {s : ET} (h : Res.foldl (Unif.step env rt true) s us = .ok s)
    (hc : ConstInv env us s) : ∀ u ∈ us, u.step env rt true s = .ok s := by
  induction us with
  | nil => simp
  | cons u us ih =>
    simp only [Res.foldl, Res.bind_ok] at h
    obtain ⟨s1, h1, h2⟩ := h
    have d : Desc s1 s := step_desc h1 fun e ty he n b hn hb => by
      subst he
      rw [hc e ty (List.mem_cons_self ..) b ⟨n, hn, hb⟩]; exact TSet.le_refl _
    have hc' : ConstInv env us s := fun e ty he b hb => hc e ty (List.mem_cons_of_mem _ he) b hb
    obtain rfl : s1 = s := Desc.sandwich d (steps_desc h2 (hc'.desc d))
    intro v hv
    rcases List.mem_cons.1 hv with rfl | hv
    · exact h1
    · exact ih h2 hc' v hv

theorem finals_desc {env : Env} {cs cs' : List Ctx} {st st' : ET × RT}
    (h : Res.foldl (Ctx.final env cs) st cs' = .ok st') (hc : ConstInv env (allUnifs cs') st.1) : Desc st'.1 st.1 := by
  induction cs' generalizing st with
  | nil => simp only [Res.foldl, Res.ok_inj] at h; subst h; exact Desc.refl _
  | cons c cs' ih =>
    simp only [Res.foldl, Res.bind_ok, Ctx.final, Res.ok_inj] at h
    obtain ⟨s1, ⟨s1', h1, _, _, _, _, rfl⟩, h2⟩ := h
    have d := round_desc h1 fun e ty he => hc e ty (by simp [allUnifs, he])
    exact (ih h2 (ConstInv.desc (fun e ty he => hc e ty (by
      simp only [allUnifs, List.map_cons, List.flatten_cons, List.mem_append]; exact Or.inr he)) d)).trans d

theorem finals_keep {env : Env} {cs cs' : List Ctx} {st st' : ET × RT} (h : Res.foldl (Ctx.final env cs) st cs' = .ok st')
    {l : Loc} {b : VTy} (hd : DeclAt env l b) (hs : st.1 l = some (.base b)) : st'.1 l = some (.base b) := by
  induction cs' generalizing st with
  | nil => simp only [Res.foldl, Res.ok_inj] at h; subst h; exact hs
  | cons c cs' ih =>
    simp only [Res.foldl, Res.bind_ok, Ctx.final, Res.ok_inj] at h
    obtain ⟨s1, ⟨s1', h1, _, _, _, _, rfl⟩, h2⟩ := h
    exact ih h2 (round_keep h1 hd hs)

theorem propRels_same {cs : List Ctx} {s : ET} {rt rt' : RT} (h : propRels cs s rt = .ok rt') {p : String} {i : Nat} {n : TSet}
    (hn : colTy cs s p i = some n) {tys : List TSet} (hp : rt p = some tys) (hi : tys[i]? = some n) :
    ∃ tys', rt' p = some tys' ∧ tys'[i]? = some n := propRels_keep h hn hp hi

theorem finals_out {env : Env} {cs cs' : List Ctx} (hsub : ∀ c ∈ cs', c ∈ cs) {st st' : ET × RT}
    (h : Res.foldl (Ctx.final env cs) st cs' = .ok st') {s0 : ET} (hs : SameOut cs s0 st.1) : SameOut cs s0 st'.1 := by
  induction cs' generalizing st with
  | nil => simp only [Res.foldl, Res.ok_inj] at h; subst h; exact hs
  | cons c cs' ih =>
    simp only [Res.foldl, Res.bind_ok, Ctx.final, Ctx.round, Res.ok_inj] at h
    obtain ⟨s1, ⟨s1', ⟨t1, g1, t2, g2, rt, g3, rfl⟩, _, _, _, _, rfl⟩, h2⟩ := h
    have hc := hsub c (List.mem_cons_self ..)
    refine ih (fun c hc => hsub c (List.mem_cons_of_mem _ hc)) h2 (propVars_out hc g2 ?_)
    exact keep_foldl (fun s s' u hu h hs => step_out hc hu h hs) g1 hs

/-- What the rounds of the last step do when they leave the types as they are. -/
theorem finals_same {env : Env} {cs cs' : List Ctx} {s : ET} {rt rt' : RT}
    (h : Res.foldl (Ctx.final env cs) (s, rt) cs' = .ok (s, rt')) (hc : ConstInv env (allUnifs cs') s) :
    ∀ c ∈ cs', ∃ rt1 rt2, (∀ u ∈ c.unifs, u.step env rt1 true s = .ok s) ∧ c.propVars s = .ok s ∧ propRels cs s rt1 = .ok rt2 ∧
      c.checkCast env s = .ok () ∧ c.checkConstraint s = .ok () ∧ (rt1 = rt ∨ ColsSet cs s rt1) := by
  suffices H : ∀ rt, Res.foldl (Ctx.final env cs) (s, rt) cs' = .ok (s, rt') → ∀ Q : RT → Prop, Q rt → (∀ rt', ColsSet cs s rt' → Q rt') →
      ∀ c ∈ cs', ∃ rt1 rt2, (∀ u ∈ c.unifs, u.step env rt1 true s = .ok s) ∧ c.propVars s = .ok s ∧ propRels cs s rt1 = .ok rt2 ∧
        c.checkCast env s = .ok () ∧ c.checkConstraint s = .ok () ∧ Q rt1 by
    exact H rt h (fun r => r = rt ∨ ColsSet cs s r) (Or.inl rfl) (fun _ => Or.inr)
  clear h rt
  induction cs' with
  | nil => simp
  | cons c cs' ih =>
    intro rt h Q hQ hQ'
    have hcc : ConstInv env c.unifs s := fun e ty he => hc e ty (by simp [allUnifs, he])
    have hcs : ConstInv env (allUnifs cs') s := fun e ty he => hc e ty (by
      simp only [allUnifs, List.map_cons, List.flatten_cons, List.mem_append]; exact Or.inr he)
    simp only [Res.foldl, Res.bind_ok, Ctx.final, Res.ok_inj] at h
    obtain ⟨s1, ⟨s1', h1, w1, h3, w2, h4, rfl⟩, h2⟩ := h
    obtain ⟨t, rt1⟩ := s1'
    have d := round_desc h1 hcc
    obtain rfl : t = s := Desc.sandwich d (finals_desc h2 (hcs.desc d))
    simp only [Ctx.round, Res.bind_ok, Res.ok_inj, Prod.mk.injEq] at h1
    obtain ⟨t1, g1, t2, g2, rt2, g3, rfl, rfl⟩ := h1
    obtain rfl : t1 = t2 := Desc.sandwich (steps_desc g1 hcc) (propVars_desc g2)
    intro c' hc'
    rcases List.mem_cons.1 hc' with rfl | hc'
    · exact ⟨rt, rt2, steps_same g1 hcc, g2, g3, h3, h4, hQ⟩
    · exact ih hcs rt2 h2 Q (hQ' _ (propRels_cols g3)) hQ' c' hc'

theorem finals_cols {env : Env} {cs cs' : List Ctx} {st : ET × RT} {s : ET} {rt' : RT} (hne : cs' ≠ [])
    (h : Res.foldl (Ctx.final env cs) st cs' = .ok (s, rt')) : ColsSet cs s rt' := by
  induction cs' generalizing st with
  | nil => exact absurd rfl hne
  | cons c cs' ih =>
    simp only [Res.foldl, Res.bind_ok, Ctx.final, Ctx.round, Res.ok_inj] at h
    obtain ⟨s1, ⟨s1', ⟨t1, g1, t2, g2, rt, g3, rfl⟩, _, _, _, _, rfl⟩, h2⟩ := h
    cases cs' with
    | nil =>
      simp only [Res.foldl, Res.ok_inj, Prod.mk.injEq] at h2
      obtain ⟨rfl, rfl⟩ := h2
      exact propRels_cols g3
    | cons c' cs' => exact ih (by simp) h2

theorem mem_relArgs {cs : List Ctx} {c : Ctx} (hc : c ∈ cs) {e : Loc} {p : String} {i : Nat} (h : Unif.arg e p i ∈ c.unifs) :
    (p, i) ∈ relArgs cs ∧ e ∈ relLocs cs p i := by
  constructor
  · simp only [relArgs, List.mem_dedup, List.mem_flatten, List.mem_map]
    exact ⟨_, ⟨c, hc, rfl⟩, List.mem_filterMap.2 ⟨_, h, rfl⟩⟩
  · simp only [relLocs, List.mem_flatten, List.mem_map]
    exact ⟨_, ⟨c, hc, rfl⟩, List.mem_filterMap.2 ⟨_, h, by simp⟩⟩

theorem propRels_colTy {cs : List Ctx} {s : ET} {rt rt' : RT} (h : propRels cs s rt = .ok rt') {p : String} {i : Nat}
    (hm : (p, i) ∈ relArgs cs) (hne : (relLocs cs p i).filterMap s ≠ []) : ∃ n, colTy cs s p i = some n := by
  unfold propRels at h
  generalize relArgs cs = ps at h hm
  induction ps generalizing rt with
  | nil => simp at hm
  | cons q ps ih =>
    simp only [Res.foldl, Res.bind_ok] at h
    obtain ⟨rt1, h1, h2⟩ := h
    rcases List.mem_cons.1 hm with rfl | hm
    · unfold propRel at h1
      split at h1
      · next h0 => exact absurd h0 hne
      · next h0 =>
        simp only [Res.bind_ok, Res.ofOption_ok] at h1
        obtain ⟨n, h1, _⟩ := h1
        exact ⟨n, by unfold colTy; rw [h0]; exact h1⟩
    · exact ih h2 hm

theorem fixed_of_unchanged {env : Env} {cs : List Ctx} {s : ET} {rt : RT} {st' : ET × RT} (hc : ConstInv env (allUnifs cs) s)
    (h : finalPass env cs (s, rt) = .ok st') (hu : unchanged cs (s, rt) st' = true) : Fixed env cs s rt := by
  obtain ⟨s', rt'⟩ := st'
  simp only [unchanged, Bool.and_eq_true, List.all_eq_true, decide_eq_true_eq] at hu
  obtain ⟨hu1, hu2⟩ := hu
  have hout : SameOut cs s s' := finals_out (fun _ h => h) h (fun _ _ => rfl)
  obtain rfl : s' = s := by
    funext l
    by_cases hl : l ∈ allLocs cs
    · exact (hu1 l hl).symm
    · exact hout l hl
  have H := finals_same h hc
  have hcols : ∀ c ∈ cs, ColsSet cs s' rt' := fun c hc => finals_cols (List.ne_nil_of_mem hc) h
  have hcols' : ∀ c ∈ cs, ColsSet cs s' rt := by
    intro c hc p i hp n hn tys ht
    have := hu2 (p, i) hp
    simp only at this
    exact hcols c hc p i hp n hn tys (by rw [← this]; exact ht)
  refine ⟨fun c hc u hu => ?_, fun c hc e p i hu hp => ?_, fun c hc => ?_, fun c hc => ?_, fun c hc => ?_⟩
  · obtain ⟨rt1, rt2, h1, _⟩ := H c hc
    exact step_sat (h1 u hu)
  · obtain ⟨rt1, rt2, h1, _, h3, _, _, h6⟩ := H c hc
    have hs := h1 _ hu
    obtain ⟨⟨t, ht⟩, _⟩ := step_sat hs
    obtain ⟨m1, m2⟩ := mem_relArgs hc hu
    obtain ⟨n, hn⟩ := propRels_colTy h3 m1 (List.ne_nil_of_mem (List.mem_filterMap.2 ⟨e, m2, ht⟩))
    have hcol1 : ColsSet cs s' rt1 := by
      rcases h6 with rfl | h6
      · exact hcols' c hc
      · exact h6
    simp only [Unif.step, hp] at hs
    split at hs
    · simp at hs
    · next tys htys =>
      split at hs
      · next t1 ht1 =>
        have hn1 := hcol1 p i m1 n hn tys htys
        rw [hn1] at ht1
        simp only [Option.some.injEq] at ht1
        subst ht1
        obtain ⟨t', g1, g2⟩ := narrow_self hs
        have : n.le t' := (TSet.unifyAll_some hn).1 t' (List.mem_filterMap.2 ⟨e, m2, g1⟩)
        have e1 := TSet.le_antisymm this g2
        subst e1
        -- the relation has types in `rt` too
        have hrt : ∃ tys0, rt p = some tys0 := by
          have e2 := hu2 (p, i) m1
          simp only at e2
          have key : ∀ (cs' : List Ctx) (st st' : ET × RT), Res.foldl (Ctx.final env cs) st cs' = .ok st' →
              (st.2 p).isSome = (st'.2 p).isSome := by
            intro cs'
            induction cs' with
            | nil => intro st st' h; simp only [Res.foldl, Res.ok_inj] at h; subst h; rfl
            | cons c cs' ih =>
              intro st st' h
              simp only [Res.foldl, Res.bind_ok, Ctx.final, Ctx.round, Res.ok_inj] at h
              obtain ⟨s1, ⟨s1', ⟨t1, g1, t2, g2, rt, g3, rfl⟩, _, _, _, _, rfl⟩, h2⟩ := h
              rw [← ih _ _ h2]
              have : ∀ (ps : List (String × Nat)) (r r' : RT), Res.foldl (propRel cs t2) r ps = .ok r' → (r p).isSome = (r' p).isSome := by
                intro ps
                induction ps with
                | nil => intro r r' h; simp only [Res.foldl, Res.ok_inj] at h; subst h; rfl
                | cons q ps ih =>
                  intro r r' h
                  simp only [Res.foldl, Res.bind_ok] at h
                  obtain ⟨r1, h1, h2⟩ := h
                  rw [← ih _ _ h2]
                  exact (propRel_none h1 (p := p)).1
              exact this _ _ _ g3
          by_contra hno
          have hnone : rt p = none := by
            cases h : rt p with
            | none => rfl
            | some x => exact absurd ⟨x, h⟩ hno
          -- then the step for this atom would have failed
          rcases h6 with rfl | h6
          · rw [htys] at hnone; simp at hnone
          · exact absurd hno (by
              intro hno
              clear h6
              have hk : (rt p).isSome = true := by
                have hk2 : ∀ (cs' : List Ctx), (∀ c ∈ cs', c ∈ cs) → ∀ (st st' : ET × RT), Res.foldl (Ctx.final env cs) st cs' = .ok st' →
                    c ∈ cs' → (st.2 p).isSome = true := by
                  intro cs'
                  induction cs' with
                  | nil => intro _ st st' _ hm; simp at hm
                  | cons c0 cs' ih =>
                    intro hsub st st' h hm
                    have h' := h
                    simp only [Res.foldl, Res.bind_ok] at h'
                    obtain ⟨s1, h1, h2⟩ := h'
                    rcases List.mem_cons.1 hm with rfl | hm
                    · simp only [Ctx.final, Ctx.round, Res.bind_ok, Res.ok_inj] at h1
                      obtain ⟨s1', ⟨t1, g1, t2, g2, rt, g3, rfl⟩, _⟩ := h1
                      have : ∀ (us : List Unif) (s s' : ET), Res.foldl (Unif.step env st.2 true) s us = .ok s' →
                          Unif.arg e p i ∈ us → (st.2 p).isSome = true := by
                        intro us
                        induction us with
                        | nil => intro _ _ _ hm; simp at hm
                        | cons u us ih =>
                          intro s s' h hm
                          simp only [Res.foldl, Res.bind_ok] at h
                          obtain ⟨s1, h1, h2⟩ := h
                          rcases List.mem_cons.1 hm with rfl | hm
                          · simp only [Unif.step, hp] at h1
                            split at h1
                            · simp at h1
                            · next h => rw [h]; rfl
                          · exact ih _ _ h2 hm
                      exact this _ _ _ g1 hu
                    · rw [key [c0] st s1 (by simp only [Res.foldl, Res.bind_ok]; exact ⟨s1, h1, rfl⟩)]
                      exact ih (fun c hc => hsub c (List.mem_cons_of_mem _ hc)) _ _ h2 hm
                exact hk2 cs (fun _ h => h) _ _ h hc
              rw [hnone] at hk
              simp at hk)
        obtain ⟨tys0, hrt⟩ := hrt
        exact ⟨tys0, n, hrt, hcols' c hc p i m1 n hn tys0 hrt, g1⟩
      · simp at hs
  · obtain ⟨rt1, rt2, _, h2, _⟩ := H c hc; exact h2
  · obtain ⟨rt1, rt2, _, _, _, h4, _⟩ := H c hc; exact h4
  · obtain ⟨rt1, rt2, _, _, _, _, h5, _⟩ := H c hc; exact h5

end Scallop.Ty
