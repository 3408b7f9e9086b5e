import Verif.Proof.TypeSound

/-! # Column types only become more precise -/

namespace Scallop.Ty

variable {F : Type}

/-! ## Locations -/

mutual
theorem locs_suffix : ∀ (e : TExpr F) (l m : Loc) (u : Unif), u ∈ e.unifs l → m ∈ u.locs → l <:+ m
  | .const c, l, m, u, h, hm => by
    simp only [TExpr.unifs, List.mem_singleton] at h
    subst h
    simp only [Unif.locs, List.mem_singleton] at hm
    rw [hm]; exact List.suffix_rfl
  | .var y, l, m, u, h, hm => by
    simp only [TExpr.unifs, List.mem_singleton] at h
    subst h
    simp only [Unif.locs, List.mem_singleton] at hm
    rw [hm]; exact List.suffix_rfl
  | .wild, l, m, u, h, hm => by simp [TExpr.unifs] at h
  | .bin op a b, l, m, u, h, hm => by
    simp only [TExpr.unifs, List.mem_cons, List.mem_append] at h
    rcases h with rfl | h | h
    · simp only [Unif.locs, List.mem_cons, List.not_mem_nil, or_false] at hm
      rcases hm with rfl | rfl | rfl
      · exact List.suffix_cons ..
      · exact List.suffix_cons ..
      · exact List.suffix_rfl
    · exact (List.suffix_cons 0 l).trans (locs_suffix a _ m u h hm)
    · exact (List.suffix_cons 1 l).trans (locs_suffix b _ m u h hm)
  | .un op a, l, m, u, h, hm => by
    simp only [TExpr.unifs, List.mem_cons] at h
    rcases h with rfl | h
    · simp only [Unif.locs, List.mem_cons, List.not_mem_nil, or_false] at hm
      rcases hm with rfl | rfl
      · exact List.suffix_cons ..
      · exact List.suffix_rfl
    · exact (List.suffix_cons 0 l).trans (locs_suffix a _ m u h hm)
  | .ite c a b, l, m, u, h, hm => by
    simp only [TExpr.unifs, List.mem_cons, List.mem_append] at h
    rcases h with rfl | (h | h) | h
    · simp only [Unif.locs, List.mem_cons, List.not_mem_nil, or_false] at hm
      rcases hm with rfl | rfl | rfl | rfl
      · exact List.suffix_rfl
      · exact List.suffix_cons ..
      · exact List.suffix_cons ..
      · exact List.suffix_cons ..
    · exact (List.suffix_cons 0 l).trans (locs_suffix c _ m u h hm)
    · exact (List.suffix_cons 1 l).trans (locs_suffix a _ m u h hm)
    · exact (List.suffix_cons 2 l).trans (locs_suffix b _ m u h hm)
  | .call f args, l, m, u, h, hm => by
    simp only [TExpr.unifs, List.mem_cons] at h
    rcases h with rfl | h
    · simp only [Unif.locs, List.mem_cons, kids, List.mem_map] at hm
      rcases hm with rfl | ⟨k, _, rfl⟩
      · exact List.suffix_rfl
      · exact List.suffix_cons ..
    · obtain ⟨j, _, h⟩ := locs_suffixList args l 0 m u h hm
      exact (List.suffix_cons j l).trans h
  | .new f args, l, m, u, h, hm => by
    simp only [TExpr.unifs, List.mem_cons] at h
    rcases h with rfl | h
    · simp only [Unif.locs, List.mem_cons, kids, List.mem_map] at hm
      rcases hm with rfl | ⟨k, _, rfl⟩
      · exact List.suffix_rfl
      · exact List.suffix_cons ..
    · obtain ⟨j, _, h⟩ := locs_suffixList args l 0 m u h hm
      exact (List.suffix_cons j l).trans h
theorem locs_suffixList : ∀ (es : List (TExpr F)) (l : Loc) (i : Nat) (m : Loc) (u : Unif), u ∈ TExpr.unifsList l i es → m ∈ u.locs →
    ∃ j, i ≤ j ∧ (j :: l) <:+ m
  | [], l, i, m, u, h, hm => by simp [TExpr.unifsList] at h
  | e :: es, l, i, m, u, h, hm => by
    simp only [TExpr.unifsList, List.mem_append] at h
    rcases h with h | h
    · exact ⟨i, Nat.le_refl _, locs_suffix e _ m u h hm⟩
    · obtain ⟨j, h1, h2⟩ := locs_suffixList es l (i + 1) m u h hm
      exact ⟨j, by omega, h2⟩
end

theorem ctx_suffix {r : TRule F} {i : Nat} {u : Unif} (h : u ∈ (r.ctx i).unifs) {m : Loc} (hm : m ∈ u.locs) : [i] <:+ m := by
  obtain ⟨j, a, _, h⟩ := ctx_unifs.1 h
  have hat : ∀ a : TAtom F, u ∈ a.unifs [j, i] → [j, i] <:+ m := by
    intro a h
    simp only [TAtom.unifs, List.mem_append, List.mem_map] at h
    rcases h with ⟨k, _, rfl⟩ | h
    · simp only [Unif.locs, List.mem_singleton] at hm
      rw [hm]; exact List.suffix_cons ..
    · obtain ⟨k, _, h⟩ := locs_suffixList _ _ _ _ _ h hm
      exact (List.suffix_cons k _).trans h
  refine (List.suffix_cons j [i]).trans ?_
  cases a with
  | pos a => exact hat a h
  | neg a => exact hat a h
  | constraint e => exact (List.suffix_cons 0 _).trans (locs_suffix e _ _ _ h hm)

/-- A location belongs to one rule only. -/
def Apart (cs : List Ctx) : Prop :=
  ∀ c ∈ cs, ∀ c' ∈ cs, ∀ u ∈ c.unifs, ∀ u' ∈ c'.unifs, ∀ m, m ∈ u.locs → m ∈ u'.locs → c = c'

theorem ctxs_apart (rs : List (TRule F)) : Apart (ctxsOf rs) := by
  intro c hc c' hc' u hu u' hu' m hm hm'
  simp only [ctxsOf, List.mem_map] at hc hc'
  obtain ⟨⟨r, i⟩, h1, rfl⟩ := hc
  obtain ⟨⟨r', i'⟩, h1', rfl⟩ := hc'
  have := suffix_same (ctx_suffix hu hm) (ctx_suffix hu' hm')
  subst this
  have h1 := List.mem_zipIdx_iff_getElem?.1 h1
  have h1' := List.mem_zipIdx_iff_getElem?.1 h1'
  rw [h1] at h1'
  simp only [Option.some.injEq] at h1'
  rw [h1']

/-! ## Columns -/

/-- Relations keep their types, or get more precise ones. -/
def RDesc (rt' rt : RT) : Prop :=
  ∀ p tys, rt p = some tys → ∃ tys', rt' p = some tys' ∧ ∀ (i : Nat) t', tys'[i]? = some t' → ∃ t, tys[i]? = some t ∧ TSet.le t' t

theorem RDesc.refl (rt : RT) : RDesc rt rt := fun _ tys h => ⟨tys, h, fun _ t' h' => ⟨t', h', TSet.le_refl _⟩⟩

theorem RDesc.trans {a b c : RT} (h1 : RDesc a b) (h2 : RDesc b c) : RDesc a c := by
  intro p tys h
  obtain ⟨tys1, g1, g2⟩ := h2 p tys h
  obtain ⟨tys2, g3, g4⟩ := h1 p tys1 g1
  refine ⟨tys2, g3, fun i t' ht => ?_⟩
  obtain ⟨t1, k1, k2⟩ := g4 i t' ht
  obtain ⟨t2, k3, k4⟩ := g2 i t1 k1
  exact ⟨t2, k3, TSet.le_trans k2 k4⟩

/-- The arguments of relations that have a type have one below the column's. -/
def ArgsBelow (cs : List Ctx) (rt0 : RT) (s : ET) : Prop :=
  ∀ c ∈ cs, ∀ e p i, Unif.arg e p i ∈ c.unifs → ∀ tys, rt0 p = some tys → ∀ t, s e = some t → ∃ t0, tys[i]? = some t0 ∧ t.le t0

theorem step_desc_at {env : Env} {rt : RT} {strict : Bool} {s s' : ET} {u : Unif} (h : u.step env rt strict s = .ok s') {l : Loc}
    (hl : env.constTy l = none) : oLe (s' l) (s l) := by
  by_cases hu : ∃ e ty n b', u = .ofConst e ty ∧ env.constTy e = some n ∧ env.types n = some b'
  · obtain ⟨e, ty, n, b', rfl, h1, h2⟩ := hu
    simp only [Unif.step, h1, h2, Res.bind_ok, Res.ofOption_ok, Res.ok_inj] at h
    obtain ⟨t, ht, rfl⟩ := h
    have : l ≠ e := by rintro rfl; rw [hl] at h1; simp at h1
    rw [ET.set_ne this]; exact oLe_refl _
  · exact step_desc h (fun e ty he n b hn hb => absurd ⟨e, ty, n, b, he, hn, hb⟩ hu) l

theorem steps_desc_at {env : Env} {rt : RT} {strict : Bool} {us : List Unif} {s s' : ET}
    (h : Res.foldl (Unif.step env rt strict) s us = .ok s') {l : Loc} (hl : env.constTy l = none) : oLe (s' l) (s l) := by
  induction us generalizing s with
  | nil => simp only [Res.foldl, Res.ok_inj] at h; subst h; exact oLe_refl _
  | cons u us ih =>
    simp only [Res.foldl, Res.bind_ok] at h
    obtain ⟨s1, h1, h2⟩ := h
    exact oLe_trans (ih h2) (step_desc_at h1 hl)

/-- After the unifications of a rule, its arguments have types below those of the columns. -/
theorem steps_arg {env : Env} {rt : RT} {strict : Bool} {us : List Unif} {s s' : ET}
    (h : Res.foldl (Unif.step env rt strict) s us = .ok s') {e : Loc} {p : String} {i : Nat} (hu : Unif.arg e p i ∈ us)
    (hl : env.constTy e = none) (hp : env.preds p = none) :
    ∃ tys t0 t, rt p = some tys ∧ tys[i]? = some t0 ∧ s' e = some t ∧ t.le t0 := by
  induction us generalizing s with
  | nil => simp at hu
  | cons u us ih =>
    simp only [Res.foldl, Res.bind_ok] at h
    obtain ⟨s1, h1, h2⟩ := h
    rcases List.mem_cons.1 hu with rfl | hu
    · simp only [Unif.step, hp] at h1
      split at h1
      · simp at h1
      · next tys ht =>
        split at h1
        · next t0 ht0 =>
          obtain ⟨t, g1, g2⟩ := narrow_self h1
          have := steps_desc_at h2 hl
          rw [g1] at this
          cases hs : s' e with
          | none => rw [hs] at this; exact this.elim
          | some t' =>
            rw [hs] at this
            exact ⟨tys, t0, t', ht, ht0, rfl, TSet.le_trans this g2⟩
        · simp at h1
    · exact ih h2 hu

theorem mem_relLocs {cs : List Ctx} {p : String} {i : Nat} {e : Loc} (h : e ∈ relLocs cs p i) : ∃ c ∈ cs, Unif.arg e p i ∈ c.unifs := by
  simp only [relLocs, List.mem_flatten, List.mem_map] at h
  obtain ⟨_, ⟨c, hc, rfl⟩, h0⟩ := h
  obtain ⟨u, hu, h⟩ := List.mem_filterMap.1 h0
  clear h0
  cases u <;> simp only [reduceCtorEq] at h
  split at h
  · next hq =>
    simp only [Option.some.injEq] at h
    obtain ⟨rfl, rfl⟩ := hq
    subst h
    exact ⟨c, hc, hu⟩
  · simp at h

/-- Columns compared with those at the start. -/
def ColsBelow (rt0 rt : RT) : Prop :=
  ∀ p, (rt0 p = none → rt p = none) ∧ ∀ tys0, rt0 p = some tys0 → ∃ tys, rt p = some tys ∧ tys.length = tys0.length ∧
    ∀ (i : Nat) t, tys[i]? = some t → ∃ t0, tys0[i]? = some t0 ∧ TSet.le t t0

theorem propRel_below {cs : List Ctx} {s : ET} {rt0 rt rt' : RT} {qj : String × Nat} (h : propRel cs s rt qj = .ok rt')
    (hs : ArgsBelow cs rt0 s) (hr : ColsBelow rt0 rt) : ColsBelow rt0 rt' := by
  unfold propRel at h
  split at h
  · rw [Res.ok_inj] at h; subst h; exact hr
  · next t ts hts =>
    simp only [Res.bind_ok, Res.ofOption_ok] at h
    obtain ⟨n, hn, h⟩ := h
    split at h
    · rw [Res.ok_inj] at h; subst h; exact hr
    · next tys ht =>
      split at h
      · next hlt =>
        rw [Res.ok_inj] at h
        subst h
        intro p
        refine ⟨fun h0 => ?_, fun tys0 h0 => ?_⟩
        · have := (hr p).1 h0
          by_cases hp : p = qj.1
          · subst hp; rw [ht] at this; simp at this
          · simp only [if_neg hp]; exact this
        · obtain ⟨tys1, g1, g2, g3⟩ := (hr p).2 tys0 h0
          by_cases hp : p = qj.1
          · subst hp
            rw [ht] at g1
            simp only [Option.some.injEq] at g1
            subst g1
            refine ⟨_, if_pos rfl, by rw [List.length_set]; exact g2, fun i t' hi => ?_⟩
            by_cases hij : qj.2 = i
            · subst hij
              rw [List.getElem?_set_self hlt] at hi
              simp only [Option.some.injEq] at hi
              subst hi
              have hm := (TSet.unifyAll_some hn).2
              rw [← hts] at hm
              obtain ⟨e, he, hse⟩ := List.mem_filterMap.1 hm
              obtain ⟨c, hc, hu⟩ := mem_relLocs he
              exact hs c hc e _ _ hu tys0 h0 n hse
            · rw [List.getElem?_set_ne hij] at hi
              exact g3 i t' hi
          · simp only [if_neg hp]
            exact ⟨tys1, g1, g2, g3⟩
      · simp at h

theorem propRels_below {cs : List Ctx} {s : ET} {rt0 rt rt' : RT} (h : propRels cs s rt = .ok rt')
    (hs : ArgsBelow cs rt0 s) (hr : ColsBelow rt0 rt) : ColsBelow rt0 rt' := by
  unfold propRels at h
  generalize relArgs cs = ps at h
  induction ps generalizing rt with
  | nil => simp only [Res.foldl, Res.ok_inj] at h; subst h; exact hr
  | cons p ps ih =>
    simp only [Res.foldl, Res.bind_ok] at h
    obtain ⟨rt1, h1, h2⟩ := h
    exact ih (propRel_below h1 hs hr) h2

theorem arg_ne_const {cs : List Ctx} {env : Env} (hna : ∀ c ∈ cs, ∀ e p i, Unif.arg e p i ∈ c.unifs → env.constTy e = none)
    {c : Ctx} (hc : c ∈ cs) {e : Loc} {p : String} {i : Nat} (h : Unif.arg e p i ∈ c.unifs) : env.constTy e = none := hna c hc e p i h

section
variable {env : Env} {cs : List Ctx} (hap : Apart cs) (hna : ∀ c ∈ cs, ∀ e p i, Unif.arg e p i ∈ c.unifs → env.constTy e = none)
  {rt0 : RT} (hfo : ∀ p, env.preds p ≠ none → rt0 p = none)
include hap hna hfo

theorem round_below {strict : Bool} {st st' : ET × RT} {c : Ctx} (hc : c ∈ cs) (h : c.round env cs strict st = .ok st')
    (hs : ArgsBelow cs rt0 st.1) (hr : ColsBelow rt0 st.2) : ArgsBelow cs rt0 st'.1 ∧ ColsBelow rt0 st'.2 := by
  simp only [Ctx.round, Res.bind_ok, Res.ok_inj] at h
  obtain ⟨s1, h1, s2, h2, rt, h3, rfl⟩ := h
  have A : ArgsBelow cs rt0 s2 := by
    intro c' hc' e p i hu tys ht t hst
    have hcn := hna c' hc' e p i hu
    have hp : env.preds p = none := by
      by_contra hp
      rw [hfo p hp] at ht; simp at ht
    by_cases hin : ∃ u ∈ c.unifs, e ∈ u.locs
    · obtain ⟨u, hu', hl⟩ := hin
      have := hap c hc c' hc' u hu' _ hu e hl (by simp [Unif.locs])
      subst this
      obtain ⟨tys1, t1, t2, g1, g2, g3, g4⟩ := steps_arg h1 hu hcn hp
      obtain ⟨tys2, k1, k2, k3⟩ := (hr p).2 tys ht
      rw [k1] at g1
      simp only [Option.some.injEq] at g1
      subst g1
      obtain ⟨t0, k4, k5⟩ := k3 i t1 g2
      have d := propVars_desc h2 e
      rw [hst, g3] at d
      exact ⟨t0, k4, TSet.le_trans d (TSet.le_trans g4 k5)⟩
    · have e1 : s1 e = st.1 e := by
        have := keep_foldl (P := fun s => s e = st.1 e) (fun s s' u hu' h hs => by
          refine keep_step (P := fun s => s e = st.1 e) (L := u.locs) (fun s a n ha hs => ?_) (fun _ h => h) h hs
          rw [ET.set_ne (by rintro rfl; exact hin ⟨u, hu', ha⟩)]; exact hs) h1 rfl
        exact this
      have e2 : s2 e = s1 e := by
        rcases propVars_ok h2 e with ⟨h, _⟩ | ⟨x, t, _, hx, _⟩
        · exact h
        · exact absurd ⟨_, mem_varLocs.1 hx, by simp [Unif.locs]⟩ hin
      rw [e2, e1] at hst
      exact hs c' hc' e p i hu tys ht t hst
  exact ⟨A, propRels_below h3 A hr⟩

theorem rounds_below {strict : Bool} {cs' : List Ctx} (hsub : ∀ c ∈ cs', c ∈ cs) {st st' : ET × RT}
    (h : Res.foldl (Ctx.round env cs strict) st cs' = .ok st')
    (hs : ArgsBelow cs rt0 st.1) (hr : ColsBelow rt0 st.2) : ArgsBelow cs rt0 st'.1 ∧ ColsBelow rt0 st'.2 := by
  induction cs' generalizing st with
  | nil => simp only [Res.foldl, Res.ok_inj] at h; subst h; exact ⟨hs, hr⟩
  | cons c cs' ih =>
    simp only [Res.foldl, Res.bind_ok] at h
    obtain ⟨s1, h1, h2⟩ := h
    obtain ⟨g1, g2⟩ := round_below hap hna hfo (hsub c (List.mem_cons_self ..)) h1 hs hr
    exact ih (fun c hc => hsub c (List.mem_cons_of_mem _ hc)) h2 g1 g2

theorem finals_below {cs' : List Ctx} (hsub : ∀ c ∈ cs', c ∈ cs) {st st' : ET × RT}
    (h : Res.foldl (Ctx.final env cs) st cs' = .ok st')
    (hs : ArgsBelow cs rt0 st.1) (hr : ColsBelow rt0 st.2) : ArgsBelow cs rt0 st'.1 ∧ ColsBelow rt0 st'.2 := by
  induction cs' generalizing st with
  | nil => simp only [Res.foldl, Res.ok_inj] at h; subst h; exact ⟨hs, hr⟩
  | cons c cs' ih =>
    simp only [Res.foldl, Res.bind_ok, Ctx.final, Res.ok_inj] at h
    obtain ⟨s1, ⟨s1', h1, _, _, _, _, rfl⟩, h2⟩ := h
    obtain ⟨g1, g2⟩ := round_below hap hna hfo (hsub c (List.mem_cons_self ..)) h1 hs hr
    exact ih (fun c hc => hsub c (List.mem_cons_of_mem _ hc)) h2 g1 g2

theorem loop_below {fuel : Nat} {st : ET × RT} {s : ET} {rt : RT} (h : loop env cs fuel st = .done s rt)
    (hs : ArgsBelow cs rt0 st.1) (hr : ColsBelow rt0 st.2) : ArgsBelow cs rt0 s ∧ ColsBelow rt0 rt := by
  induction fuel generalizing st with
  | zero => simp [loop] at h
  | succ fuel ih =>
    simp only [loop] at h
    split at h
    · simp at h
    · simp at h
    · next st' hp =>
      obtain ⟨g1, g2⟩ := rounds_below hap hna hfo (fun _ h => h) hp hs hr
      split at h
      · simp only [LoopRes.done.injEq] at h
        obtain ⟨rfl, rfl⟩ := h
        exact ⟨g1, g2⟩
      · exact ih h g1 g2

theorem infer_below {fuel : Nat} {s : ET} {rt : RT} (h : inferTypes env cs fuel rt0 = some (.ok (s, rt))) :
    ArgsBelow cs rt0 s ∧ ColsBelow rt0 rt := by
  simp only [inferTypes] at h
  split at h <;> simp only [Option.some.injEq, reduceCtorEq] at h
  next s1 rt1 hl =>
  have A : ArgsBelow cs rt0 (fun _ => none) := fun _ _ _ _ _ _ _ _ _ h => by simp at h
  have B : ColsBelow rt0 rt0 := fun p => ⟨fun h => h, fun tys h => ⟨tys, h, rfl, fun _ t h => ⟨t, h, TSet.le_refl _⟩⟩⟩
  obtain ⟨g1, g2⟩ := loop_below hap hna hfo hl A B
  exact finals_below hap hna hfo (fun _ h => h) h g1 g2

end

/-! ## Items -/

theorem collect_some {α β : Type} {f : α → Option β} {as : List α} {bs : List β} (h : collect f as = some bs) :
    bs.length = as.length ∧ ∀ (i : Nat) b, bs[i]? = some b → ∃ a, as[i]? = some a ∧ f a = some b := by
  induction as generalizing bs with
  | nil => simp only [collect, Option.some.injEq] at h; subst h; exact ⟨rfl, fun i b h => by simp at h⟩
  | cons a as ih =>
    simp only [collect, Option.bind_eq_some_iff, Option.some.injEq] at h
    obtain ⟨b, h1, bs', h2, rfl⟩ := h
    obtain ⟨g1, g2⟩ := ih h2
    refine ⟨by simp [g1], fun i b' hi => ?_⟩
    cases i with
    | zero =>
      simp only [List.getElem?_cons_zero, Option.some.injEq] at hi ⊢
      subst hi
      exact ⟨a, rfl, h1⟩
    | succ i => simpa using g2 i b' (by simpa using hi)

theorem zip_get {α β : Type} {as : List α} {bs : List β} {i : Nat} {x : α × β} (h : (as.zip bs)[i]? = some x) :
    as[i]? = some x.1 ∧ bs[i]? = some x.2 := by
  rw [List.getElem?_zip_eq_some] at h
  exact h

theorem put_self {rt : RT} {p : String} {tys : List TSet} : (rt.put p tys) p = some tys := by simp [RT.put]
theorem put_ne {rt : RT} {p q : String} {tys : List TSet} (h : q ≠ p) : (rt.put p tys) q = rt q := by simp [RT.put, h]

theorem RDesc.put {rt : RT} {p : String} {tys : List TSet}
    (h : ∀ old, rt p = some old → ∀ (i : Nat) t', tys[i]? = some t' → ∃ t, old[i]? = some t ∧ t'.le t) : RDesc (rt.put p tys) rt := by
  intro q old hq
  by_cases hqp : q = p
  · subst hqp
    exact ⟨tys, put_self, h old hq⟩
  · exact ⟨old, by rw [put_ne hqp]; exact hq, fun _ t' h' => ⟨t', h', TSet.le_refl _⟩⟩

theorem addArity_desc {env : Env} {rt rt' : RT} {a : TAtom F} (h : addArity env rt a = some rt') : RDesc rt' rt := by
  unfold addArity at h
  split at h
  · simp only [Option.some.injEq] at h; subst h; exact RDesc.refl _
  · split at h
    · next hn =>
      simp only [Option.some.injEq] at h; subst h
      exact RDesc.put fun old ho => by rw [hn] at ho; simp at ho
    · split at h
      · simp only [Option.some.injEq] at h; subst h; exact RDesc.refl _
      · simp at h

theorem foldOpt_desc {α : Type} {f : RT → α → Option RT} {as : List α} {rt rt' : RT} (hf : ∀ rt rt' a, a ∈ as → f rt a = some rt' → RDesc rt' rt)
    (h : foldOpt f rt as = some rt') : RDesc rt' rt := by
  induction as generalizing rt with
  | nil => simp only [foldOpt, Option.some.injEq] at h; subst h; exact RDesc.refl _
  | cons a as ih =>
    simp only [foldOpt, Option.bind_eq_some_iff] at h
    obtain ⟨rt1, h1, h2⟩ := h
    exact (ih (fun rt rt' b hb => hf rt rt' b (List.mem_cons_of_mem _ hb)) h2).trans (hf _ _ _ (List.mem_cons_self ..) h1)

theorem addItem_desc {env : Env} {rt rt' : RT} {it : Item F} (h : addItem env rt it = some rt') : RDesc rt' rt := by
  have zips : ∀ {old cur n : List TSet}, collect (fun ab : TSet × TSet => TSet.unify ab.1 ab.2) (old.zip cur) = some n →
      ∀ (i : Nat) t', n[i]? = some t' → ∃ t, old[i]? = some t ∧ t'.le t := by
    intro old cur n hn i t' ht
    obtain ⟨ab, g1, g2⟩ := (collect_some hn).2 i t' ht
    exact ⟨ab.1, (zip_get g1).1, (TSet.unify_some g2).1⟩
  cases it with
  | decl p tys =>
    simp only [addItem] at h
    split at h
    · simp at h
    · simp only [addDecl, Option.bind_eq_some_iff] at h
      obtain ⟨ts, h1, h⟩ := h
      split at h
      · next old ho =>
        simp only [Option.bind_eq_some_iff, Option.some.injEq] at h
        obtain ⟨n, h2, rfl⟩ := h
        exact RDesc.put fun old' ho' => by rw [ho] at ho'; cases ho'; exact zips h2
      · next hn =>
        simp only [Option.some.injEq] at h; subst h
        exact RDesc.put fun old ho => by rw [hn] at ho; simp at ho
  | fact p args =>
    simp only [addItem, addFact] at h
    split at h
    · simp at h
    · simp only [Option.bind_eq_some_iff] at h
      obtain ⟨ts, h1, h⟩ := h
      split at h
      · next old ho =>
        split at h
        · simp only [Option.bind_eq_some_iff, Option.some.injEq] at h
          obtain ⟨n, h2, rfl⟩ := h
          exact RDesc.put fun old' ho' => by rw [ho] at ho'; cases ho'; exact zips h2
        · simp at h
      · next hn =>
        simp only [Option.some.injEq] at h; subst h
        exact RDesc.put fun old ho => by rw [hn] at ho; simp at ho
  | rule r =>
    simp only [addItem, addRule] at h
    split at h
    · simp at h
    · exact foldOpt_desc (fun _ _ _ _ h => addArity_desc h) h

theorem foldOpt_append {α β : Type} {f : β → α → Option β} {as bs : List α} {b : β} :
    foldOpt f b (as ++ bs) = (foldOpt f b as).bind fun b' => foldOpt f b' bs := by
  induction as generalizing b with
  | nil => rfl
  | cons a as ih =>
    simp only [List.cons_append, foldOpt]
    cases f b a with
    | none => rfl
    | some b' => simpa using ih

/-- Columns that facts belong to have types that the literals of the facts have. -/
theorem fact_below {env : Env} {items : List (Item F)} {rt : RT} (h : addItems env items = some rt) {p : String}
    {args : List (Const F × Option String)} (hf : Item.fact p args ∈ items) :
    ∃ tys, rt p = some tys ∧ ∀ (k : Nat) c t, args[k]? = some c → tys[k]? = some t → ∃ b, resolveConst env c = some b ∧ t.le b := by
  obtain ⟨pre, post, rfl⟩ := List.append_of_mem hf
  simp only [addItems, foldOpt_append, Option.bind_eq_some_iff, foldOpt] at h
  obtain ⟨rt1, h1, rt2, h2, h3⟩ := h
  have key : ∃ tys, rt2 p = some tys ∧ ∀ (k : Nat) c t, args[k]? = some c → tys[k]? = some t → ∃ b, resolveConst env c = some b ∧ t.le b := by
    simp only [addItem, addFact] at h2
    split at h2
    · simp at h2
    · simp only [Option.bind_eq_some_iff] at h2
      obtain ⟨cur, g1, h2⟩ := h2
      have hcur : ∀ (k : Nat) c t, args[k]? = some c → cur[k]? = some t → resolveConst env c = some t := by
        intro k c t hk ht
        obtain ⟨a, k1, k2⟩ := (collect_some g1).2 k t ht
        rw [hk] at k1
        simp only [Option.some.injEq] at k1
        subst k1
        exact k2
      split at h2
      · split at h2
        · simp only [Option.bind_eq_some_iff, Option.some.injEq] at h2
          obtain ⟨n, g2, rfl⟩ := h2
          refine ⟨n, put_self, fun k c t hk ht => ?_⟩
          obtain ⟨ab, g3, g4⟩ := (collect_some g2).2 k t ht
          exact ⟨ab.2, hcur k c _ hk (zip_get g3).2, (TSet.unify_some g4).2.1⟩
        · simp at h2
      · simp only [Option.some.injEq] at h2; subst h2
        exact ⟨cur, put_self, fun k c t hk ht => ⟨t, hcur k c t hk ht, TSet.le_refl _⟩⟩
  obtain ⟨tys, k1, k2⟩ := key
  obtain ⟨tys', k3, k4⟩ := foldOpt_desc (fun _ _ _ _ h => addItem_desc h) h3 p tys k1
  refine ⟨tys', k3, fun k c t hk ht => ?_⟩
  obtain ⟨t1, k5, k6⟩ := k4 k t ht
  obtain ⟨b, k7, k8⟩ := k2 k c t1 hk k5
  exact ⟨b, k7, TSet.le_trans k6 k8⟩

theorem addItem_foreign {env : Env} {rt rt' : RT} {it : Item F} (h : addItem env rt it = some rt') (hr : ∀ p, env.preds p ≠ none → rt p = none) :
    ∀ p, env.preds p ≠ none → rt' p = none := by
  intro q hq
  have hput : ∀ p tys, (env.preds p).isSome ≠ true → (rt.put p tys) q = none := by
    intro p tys hp
    rw [put_ne (by rintro rfl; exact hp (Option.isSome_iff_ne_none.2 hq))]
    exact hr q hq
  cases it with
  | decl p tys =>
    simp only [addItem] at h
    split at h
    · simp at h
    · next hp =>
      simp only [addDecl, Option.bind_eq_some_iff] at h
      obtain ⟨ts, h1, h⟩ := h
      split at h
      · simp only [Option.bind_eq_some_iff, Option.some.injEq] at h
        obtain ⟨n, h2, rfl⟩ := h
        exact hput p _ hp
      · simp only [Option.some.injEq] at h; subst h; exact hput p _ hp
  | fact p args =>
    simp only [addItem, addFact] at h
    split at h
    · simp at h
    · next hp =>
      simp only [Option.bind_eq_some_iff] at h
      obtain ⟨ts, h1, h⟩ := h
      split at h
      · split at h
        · simp only [Option.bind_eq_some_iff, Option.some.injEq] at h
          obtain ⟨n, h2, rfl⟩ := h
          exact hput p _ hp
        · simp at h
      · simp only [Option.some.injEq] at h; subst h; exact hput p _ hp
  | rule r =>
    simp only [addItem, addRule] at h
    split at h
    · simp at h
    · clear hput
      generalize r.atoms = as at h
      induction as generalizing rt with
      | nil => simp only [foldOpt, Option.some.injEq] at h; subst h; exact hr q hq
      | cons a as ih =>
        simp only [foldOpt, Option.bind_eq_some_iff] at h
        obtain ⟨rt1, h1, h2⟩ := h
        refine ih (fun p hp => ?_) h2
        unfold addArity at h1
        split at h1
        · simp only [Option.some.injEq] at h1; subst h1; exact hr p hp
        · next hpn =>
          split at h1
          · simp only [Option.some.injEq] at h1; subst h1
            rw [put_ne (by rintro rfl; exact hpn (Option.isSome_iff_ne_none.2 hp))]
            exact hr p hp
          · split at h1
            · simp only [Option.some.injEq] at h1; subst h1; exact hr p hp
            · simp at h1

theorem addItems_foreign {env : Env} {items : List (Item F)} {rt : RT} (h : addItems env items = some rt) :
    ∀ p, env.preds p ≠ none → rt p = none := by
  have : ∀ (its : List (Item F)) (rt0 rt : RT), foldOpt (addItem env) rt0 its = some rt → (∀ p, env.preds p ≠ none → rt0 p = none) →
      ∀ p, env.preds p ≠ none → rt p = none := by
    intro its
    induction its with
    | nil => intro rt0 rt h hr; simp only [foldOpt, Option.some.injEq] at h; subst h; exact hr
    | cons it its ih =>
      intro rt0 rt h hr
      simp only [foldOpt, Option.bind_eq_some_iff] at h
      obtain ⟨rt1, h1, h2⟩ := h
      exact ih _ _ h2 (addItem_foreign h1 hr)
  exact this items _ rt h fun _ _ => rfl

theorem atoms_none {env : Env} {p : String} {as : List (TAtom F)} (ha : ∀ a ∈ as, a.pred ≠ p) {rt rt' : RT}
    (h : foldOpt (addArity env) rt as = some rt') : rt' p = rt p := by
  induction as generalizing rt with
  | nil => simp only [foldOpt, Option.some.injEq] at h; subst h; rfl
  | cons a as ih =>
    simp only [foldOpt, Option.bind_eq_some_iff] at h
    obtain ⟨rt1, h1, h2⟩ := h
    rw [ih (fun b hb => ha b (List.mem_cons_of_mem _ hb)) h2]
    have hne := ha a (List.mem_cons_self ..)
    unfold addArity at h1
    split at h1
    · simp only [Option.some.injEq] at h1; subst h1; rfl
    · split at h1
      · simp only [Option.some.injEq] at h1; subst h1; exact put_ne (Ne.symm hne)
      · split at h1
        · simp only [Option.some.injEq] at h1; subst h1; rfl
        · simp at h1

theorem addItem_other {env : Env} {p : String} {it : Item F} (hm : ¬ it.mentions p) {rt rt' : RT} (h : addItem env rt it = some rt') :
    rt' p = rt p := by
  cases it with
  | decl q tys =>
    simp only [Item.mentions] at hm
    simp only [addItem] at h
    split at h
    · simp at h
    · simp only [addDecl, Option.bind_eq_some_iff] at h
      obtain ⟨ts, h1, h⟩ := h
      split at h
      · simp only [Option.bind_eq_some_iff, Option.some.injEq] at h
        obtain ⟨n, h2, rfl⟩ := h
        exact put_ne (Ne.symm hm)
      · simp only [Option.some.injEq] at h; subst h; exact put_ne (Ne.symm hm)
  | fact q args =>
    simp only [Item.mentions] at hm
    simp only [addItem, addFact] at h
    split at h
    · simp at h
    · simp only [Option.bind_eq_some_iff] at h
      obtain ⟨ts, h1, h⟩ := h
      split at h
      · split at h
        · simp only [Option.bind_eq_some_iff, Option.some.injEq] at h
          obtain ⟨n, h2, rfl⟩ := h
          exact put_ne (Ne.symm hm)
        · simp at h
      · simp only [Option.some.injEq] at h; subst h; exact put_ne (Ne.symm hm)
  | rule r =>
    simp only [addItem, addRule] at h
    split at h
    · simp at h
    · exact atoms_none (fun a ha hp => hm ⟨a, ha, hp⟩) h

/-- Items that do not declare a relation keep the number of its columns. -/
theorem addItem_len {env : Env} {p : String} {it : Item F} (hm : ¬ it.declares p) {rt rt' : RT} (h : addItem env rt it = some rt')
    {tys : List TSet} (hp : rt p = some tys) : ∃ tys', rt' p = some tys' ∧ tys'.length = tys.length := by
  cases it with
  | decl q qtys =>
    exact ⟨tys, by rw [addItem_other (p := p) (by simpa [Item.mentions, Item.declares] using hm) h]; exact hp, rfl⟩
  | fact q args =>
    by_cases hq : q = p
    · subst hq
      simp only [addItem, addFact] at h
      split at h
      · simp at h
      · simp only [Option.bind_eq_some_iff] at h
        obtain ⟨ts, h1, h⟩ := h
        rw [hp] at h
        simp only at h
        split at h
        · next hl =>
          simp only [Option.bind_eq_some_iff, Option.some.injEq] at h
          obtain ⟨n, h2, rfl⟩ := h
          refine ⟨n, put_self, ?_⟩
          rw [(collect_some h2).1, List.length_zip, hl, Nat.min_self]
        · simp at h
    · exact ⟨tys, by rw [addItem_other (p := p) (by simpa [Item.mentions] using hq) h]; exact hp, rfl⟩
  | rule r =>
    simp only [addItem, addRule] at h
    split at h
    · simp at h
    · generalize r.atoms = as at h
      induction as generalizing rt with
      | nil => simp only [foldOpt, Option.some.injEq] at h; subst h; exact ⟨tys, hp, rfl⟩
      | cons a as ih =>
        simp only [foldOpt, Option.bind_eq_some_iff] at h
        obtain ⟨rt1, h1, h2⟩ := h
        refine ih ?_ h2
        unfold addArity at h1
        split at h1
        · simp only [Option.some.injEq] at h1; subst h1; exact hp
        · split at h1
          · next hn =>
            simp only [Option.some.injEq] at h1; subst h1
            rw [put_ne (by rintro rfl; rw [hn] at hp; simp at hp)]
            exact hp
          · split at h1
            · simp only [Option.some.injEq] at h1; subst h1; exact hp
            · simp at h1

theorem addItems_len {env : Env} {p : String} {its : List (Item F)} (hm : ∀ it ∈ its, ¬ it.declares p) {rt rt' : RT}
    (h : foldOpt (addItem env) rt its = some rt') {tys : List TSet} (hp : rt p = some tys) :
    ∃ tys', rt' p = some tys' ∧ tys'.length = tys.length := by
  induction its generalizing rt tys with
  | nil => simp only [foldOpt, Option.some.injEq] at h; subst h; exact ⟨tys, hp, rfl⟩
  | cons it its ih =>
    simp only [foldOpt, Option.bind_eq_some_iff] at h
    obtain ⟨rt1, h1, h2⟩ := h
    obtain ⟨tys1, g1, g2⟩ := addItem_len (hm it (List.mem_cons_self ..)) h1 hp
    obtain ⟨tys2, g3, g4⟩ := ih (fun it hi => hm it (List.mem_cons_of_mem _ hi)) h2 g1
    exact ⟨tys2, g3, g4.trans g2⟩

theorem addItems_other {env : Env} {p : String} {its : List (Item F)} (hm : ∀ it ∈ its, ¬ it.mentions p) {rt rt' : RT}
    (h : foldOpt (addItem env) rt its = some rt') : rt' p = rt p := by
  induction its generalizing rt with
  | nil => simp only [foldOpt, Option.some.injEq] at h; subst h; rfl
  | cons it its ih =>
    simp only [foldOpt, Option.bind_eq_some_iff] at h
    obtain ⟨rt1, h1, h2⟩ := h
    rw [ih (fun it hi => hm it (List.mem_cons_of_mem _ hi)) h2, addItem_other (hm it (List.mem_cons_self ..)) h1]

/-- Lists of types below lists of value types are those. -/
theorem below_base {tys tys' : List TSet} {ts : List VTy} (ht : tys = ts.map .base) (hl : tys'.length = tys.length)
    (hb : ∀ (i : Nat) t', tys'[i]? = some t' → ∃ t, tys[i]? = some t ∧ TSet.le t' t) : tys' = tys := by
  subst ht
  apply List.ext_getElem? 
  intro i
  cases h : tys'[i]? with
  | none =>
    have := List.getElem?_eq_none_iff.1 h
    rw [List.getElem?_eq_none_iff.2 (by omega)]
  | some t' =>
    obtain ⟨t, h1, h2⟩ := hb i t' h
    rw [h1]
    rw [List.getElem?_map] at h1
    cases h3 : ts[i]? with
    | none => rw [h3] at h1; simp at h1
    | some b =>
      rw [h3] at h1
      simp only [Option.map_some, Option.some.injEq] at h1
      subst h1
      rw [TSet.le_base h2]

end Scallop.Ty
