import Verif.Proof.TypeLoop

/-! # What an iteration of type inference leaves alone -/

namespace Scallop.Ty

section
variable {P : ET → Prop} {L : List Loc} (hP : ∀ s e n, e ∈ L → P s → P (s.set e n))
include hP

theorem keep_setAll {ls : List Loc} (hl : ∀ l ∈ ls, l ∈ L) {s : ET} {n : TSet} (hs : P s) : P (setAll s ls n) := by
  induction ls generalizing s with
  | nil => exact hs
  | cons l ls ih => exact ih (fun l' h => hl l' (List.mem_cons_of_mem _ h)) (hP _ _ _ (hl l (List.mem_cons_self ..)) hs)

theorem keep_unifyTy {e : Loc} (he : e ∈ L) {ty : TSet} {s : ET} {r : TSet × ET} (h : unifyTy e ty s = .ok r) (hs : P s) : P r.2 := by
  obtain ⟨n, s'⟩ := r
  obtain ⟨rfl, _, _, _⟩ := unifyTy_ok h
  exact hP _ _ _ he hs

theorem keep_narrow {e : Loc} (he : e ∈ L) {ty : TSet} {s s' : ET} (h : narrow e ty s = .ok s') (hs : P s) : P s' := by
  simp only [narrow, Res.bind_ok, Res.ok_inj] at h
  obtain ⟨r, h, rfl⟩ := h
  exact keep_unifyTy hP he h hs

theorem keep_getOrInsert {e : Loc} (he : e ∈ L) {ty : TSet} {s : ET} (hs : P s) : P (getOrInsert e ty s).2 := by
  unfold getOrInsert
  cases h : s e with
  | some t => exact hs
  | none => exact hP _ _ _ he hs

omit hP in
theorem keep_foldl {α : Type} {f : ET → α → Res ET} {as : List α} {s s' : ET} (hf : ∀ s s' a, a ∈ as → f s a = .ok s' → P s → P s')
    (h : Res.foldl f s as = .ok s') (hs : P s) : P s' := by
  induction as generalizing s with
  | nil => simp only [Res.foldl, Res.ok_inj] at h; subst h; exact hs
  | cons a as ih =>
    simp only [Res.foldl, Res.bind_ok] at h
    obtain ⟨s1, h1, h2⟩ := h
    exact ih (fun s s' b hb => hf s s' b (List.mem_cons_of_mem _ hb)) h2 (hf _ _ _ (List.mem_cons_self ..) h1 hs)

theorem keep_instances {fam : TSet} {ls : List Loc} (hl : ∀ l ∈ ls, l ∈ L) {agg : TSet} {s : ET} {r : TSet × ET}
    (h : unifyInstances fam ls agg s = .ok r) (hs : P s) : P r.2 := by
  induction ls generalizing agg s with
  | nil => simp only [unifyInstances, Res.ok_inj] at h; subst h; exact hs
  | cons a ls ih =>
    simp only [unifyInstances, Res.bind_ok, Res.ofOption_ok] at h
    obtain ⟨q, h1, ag, h2, h3⟩ := h
    exact ih (fun l' h => hl l' (List.mem_cons_of_mem _ h)) h3 (keep_unifyTy hP (hl a (List.mem_cons_self ..)) h1 hs)

theorem keep_generic {fam : TSet} {ls : List Loc} (hl : ∀ l ∈ ls, l ∈ L) {s s' : ET} (h : unifyGeneric fam ls s = .ok s') (hs : P s) :
    P s' := by
  cases ls with
  | nil => simp only [unifyGeneric, Res.ok_inj] at h; subst h; exact hs
  | cons a ls =>
    simp only [unifyGeneric, Res.bind_ok, Res.ok_inj] at h
    obtain ⟨q, h1, r, h2, rfl⟩ := h
    refine keep_setAll hP hl (keep_instances hP (fun l' h => hl l' (List.mem_cons_of_mem _ h)) h2 ?_)
    exact keep_unifyTy hP (hl a (List.mem_cons_self ..)) h1 hs

theorem keep_args {ft : FunTy} {as : List Loc} (hl : ∀ l ∈ as, l ∈ L) {i : Nat} {s s' : ET}
    (h : unifyArgs ft i as s = .ok s') (hs : P s) : P s' := by
  induction as generalizing i s with
  | nil => simp only [unifyArgs, Res.ok_inj] at h; subst h; exact hs
  | cons a as ih =>
    have hl' : ∀ l ∈ as, l ∈ L := fun l' h => hl l' (List.mem_cons_of_mem _ h)
    simp only [unifyArgs] at h
    split at h
    · simp at h
    · exact ih hl' h hs
    · simp only [Res.bind_ok] at h
      obtain ⟨s1, g1, g2⟩ := h
      exact ih hl' g2 (keep_narrow hP (hl a (List.mem_cons_self ..)) g1 hs)

theorem keep_entityArgs {xs : List (Loc × TSet)} (hl : ∀ x ∈ xs, x.1 ∈ L) {s s' : ET}
    (h : unifyEntityArgs xs s = .ok s') (hs : P s) : P s' := by
  induction xs generalizing s with
  | nil => simp only [unifyEntityArgs, Res.ok_inj] at h; subst h; exact hs
  | cons a xs ih =>
    obtain ⟨a, ty⟩ := a
    have ha : a ∈ L := hl (a, ty) (List.mem_cons_self ..)
    simp only [unifyEntityArgs, Res.bind_ok, Res.ofOption_ok] at h
    obtain ⟨n, h1, h2⟩ := h
    exact ih (fun x hx' => hl x (List.mem_cons_of_mem _ hx')) h2 (hP _ _ _ ha (keep_getOrInsert hP ha hs))

theorem keep_poly {rules : List (VTy × VTy × VTy)} {strict : Bool} {a b e : Loc} (ha : a ∈ L) (hb : b ∈ L) (he : e ∈ L) {s s' : ET}
    (h : unifyPoly rules strict a b e s = .ok s') (hs : P s) : P s' := by
  simp only [unifyPoly, Res.bind_ok] at h
  obtain ⟨r1, h1, r2, h2, r3, h3, h⟩ := h
  have d := keep_unifyTy hP he h3 (keep_unifyTy hP hb h2 (keep_unifyTy hP ha h1 hs))
  split at h
  · simp at h
  · split at h
    · simp only [Res.bind_ok] at h
      obtain ⟨s1, g1, s2, g2, g3⟩ := h
      exact keep_narrow hP he g3 (keep_narrow hP hb g2 (keep_narrow hP ha g1 d))
    · rw [Res.ok_inj] at h; subst h; exact d

theorem keep_cmp {strict : Bool} {a b e : Loc} (ha : a ∈ L) (hb : b ∈ L) (he : e ∈ L) {s s' : ET}
    (h : unifyCmp strict a b e s = .ok s') (hs : P s) : P s' := by
  simp only [unifyCmp, Res.bind_ok] at h
  obtain ⟨r1, h1, r2, h2, r3, h3, h⟩ := h
  have d := keep_unifyTy hP hb h3 (keep_unifyTy hP ha h2 (keep_unifyTy hP he h1 hs))
  split at h
  · simp at h
  · split at h
    · simp only [Res.bind_ok] at h
      obtain ⟨s1, g1, g2⟩ := h
      exact keep_narrow hP hb g2 (keep_narrow hP ha g1 d)
    · rw [Res.ok_inj] at h; subst h; exact d

/-- A unification only writes to its own locations. -/
theorem keep_step {env : Env} {rt : RT} {strict : Bool} {s s' : ET} {u : Unif} (hu : ∀ l ∈ u.locs, l ∈ L)
    (h : u.step env rt strict s = .ok s') (hs : P s) : P s' := by
  cases u with
  | arg e p i =>
    have he : e ∈ L := hu e (by simp [Unif.locs])
    simp only [Unif.step] at h
    split at h
    · split at h
      · exact keep_narrow hP he h hs
      · simp at h
    · split at h
      · simp at h
      · split at h
        · exact keep_narrow hP he h hs
        · simp at h
  | ofVar e x => simp only [Unif.step, Res.ok_inj] at h; subst h; exact hs
  | ofConst e ty =>
    have he : e ∈ L := hu e (by simp [Unif.locs])
    simp only [Unif.step] at h
    split at h
    · split at h
      · simp at h
      · simp only [Res.bind_ok, Res.ofOption_ok, Res.ok_inj] at h
        obtain ⟨t, ht, rfl⟩ := h
        exact hP _ _ _ he hs
    · exact keep_narrow hP he h hs
  | bin op a b e =>
    have ha : a ∈ L := hu a (by simp [Unif.locs])
    have hb : b ∈ L := hu b (by simp [Unif.locs])
    have he : e ∈ L := hu e (by simp [Unif.locs])
    have log : ((narrow e (.base .bool) s).bind fun s => (narrow a (.base .bool) s).bind fun s => narrow b (.base .bool) s) = .ok s' →
        P s' := by
      intro h
      simp only [Res.bind_ok] at h
      obtain ⟨s1, h1, s2, h2, h3⟩ := h
      exact keep_narrow hP hb h3 (keep_narrow hP ha h2 (keep_narrow hP he h1 hs))
    have eqs : ((narrow e (.base .bool) s).bind fun s =>
        let r1 := getOrInsert a .any s
        let r2 := getOrInsert b .any r1.2
        (Res.ofOption (r1.1.unify r2.1)).bind fun t => .ok (setAll r2.2 [a, b] t)) = .ok s' → P s' := by
      intro h
      simp only [Res.bind_ok, Res.ofOption_ok, Res.ok_inj] at h
      obtain ⟨s1, h1, t, h2, rfl⟩ := h
      exact keep_setAll hP (by simp [ha, hb]) (keep_getOrInsert hP hb (keep_getOrInsert hP ha (keep_narrow hP he h1 hs)))
    cases op with
    | add => exact keep_poly hP ha hb he h hs
    | sub => exact keep_poly hP ha hb he h hs
    | mul => exact keep_poly hP ha hb he h hs
    | div => exact keep_poly hP ha hb he h hs
    | mod =>
      simp only [Unif.step, Res.bind_ok, Res.ofOption_ok, Res.ok_inj, Option.bind_eq_some_iff] at h
      obtain ⟨t, ⟨m, h1, h2⟩, rfl⟩ := h
      exact keep_setAll hP (by simp [ha, hb, he]) (keep_getOrInsert hP hb (keep_getOrInsert hP ha (keep_getOrInsert hP he hs)))
    | eq => exact eqs h
    | neq => exact eqs h
    | and => exact log h
    | or => exact log h
    | xor => exact log h
    | lt => exact keep_cmp hP ha hb he h hs
    | leq => exact keep_cmp hP ha hb he h hs
    | gt => exact keep_cmp hP ha hb he h hs
    | geq => exact keep_cmp hP ha hb he h hs
  | un op a e =>
    have ha : a ∈ L := hu a (by simp [Unif.locs])
    have he : e ∈ L := hu e (by simp [Unif.locs])
    have pn : (let r0 := getOrInsert e .arith s
        let r1 := getOrInsert a .arith r0.2
        (Res.ofOption (r0.1.unify r1.1)).bind fun t => .ok (setAll r1.2 [e, a] t)) = .ok s' → P s' := by
      intro h'
      simp only [Res.bind_ok, Res.ofOption_ok, Res.ok_inj] at h'
      obtain ⟨t, h', rfl⟩ := h'
      exact keep_setAll hP (by simp [ha, he]) (keep_getOrInsert hP ha (keep_getOrInsert hP he hs))
    cases op with
    | pos => exact pn h
    | neg => exact pn h
    | not =>
      simp only [Unif.step, Res.bind_ok] at h
      obtain ⟨s1, h1, h2⟩ := h
      exact keep_narrow hP ha h2 (keep_narrow hP he h1 hs)
    | cast n =>
      simp only [Unif.step] at h
      split at h
      · simp at h
      · simp only [Res.bind_ok] at h
        obtain ⟨s1, h1, h2⟩ := h
        exact keep_narrow hP ha h2 (keep_narrow hP he h1 hs)
  | ite e c t f =>
    have he : e ∈ L := hu e (by simp [Unif.locs])
    have hc : c ∈ L := hu c (by simp [Unif.locs])
    have ht : t ∈ L := hu t (by simp [Unif.locs])
    have hf : f ∈ L := hu f (by simp [Unif.locs])
    simp only [Unif.step, Res.bind_ok, Res.ofOption_ok, Res.ok_inj, Option.bind_eq_some_iff] at h
    obtain ⟨s1, h1, n, ⟨m, h2, h3⟩, rfl⟩ := h
    exact keep_setAll hP (by simp [he, ht, hf])
      (keep_getOrInsert hP hf (keep_getOrInsert hP ht (keep_getOrInsert hP he (keep_narrow hP hc h1 hs))))
  | call f args e =>
    have he : e ∈ L := hu e (by simp [Unif.locs])
    have ha : ∀ l ∈ args, l ∈ L := fun l hl => hu l (by simp [Unif.locs, hl])
    simp only [Unif.step, unifyCall] at h
    split at h
    · simp at h
    · next ft hft =>
      split at h
      · simp only [Res.bind_ok] at h
        obtain ⟨s1, h1, s2, h2, h3⟩ := h
        have g1 := keep_args hP ha h1 hs
        have g2 : P s2 := by
          split at h2
          · rw [Res.ok_inj] at h2; subst h2; exact g1
          · exact keep_narrow hP he h2 g1
        refine keep_foldl (fun s s' a _ h hs => keep_generic hP (fun l hl => ?_) h hs) h3 g2
        simp only [instances, List.mem_append, List.mem_map, List.mem_filter] at hl
        rcases hl with ⟨x, ⟨hx, _⟩, rfl⟩ | hl
        · exact ha _ (List.fst_mem_of_mem_zipIdx hx)
        · split at hl
          · rw [List.mem_singleton.1 hl]; exact he
          · simp at hl
      · simp at h
  | entity f args e =>
    have he : e ∈ L := hu e (by simp [Unif.locs])
    have ha : ∀ l ∈ args, l ∈ L := fun l hl => hu l (by simp [Unif.locs, hl])
    simp only [Unif.step, Res.bind_ok] at h
    obtain ⟨s1, h1, h⟩ := h
    split at h
    · simp at h
    · split at h
      · exact keep_entityArgs hP (fun x hx => ha _ (List.of_mem_zip hx).1) h (keep_narrow hP he h1 hs)
      · simp at h

end

theorem varLocs_sub {cs : List Ctx} {c : Ctx} (hc : c ∈ cs) {x : String} {l : Loc} (h : l ∈ c.varLocs x) : l ∈ allLocs cs := by
  simp only [Ctx.varLocs, List.mem_filterMap] at h
  obtain ⟨u, hu, h⟩ := h
  simp only [allLocs, List.mem_dedup, List.mem_flatten, List.mem_map]
  refine ⟨_, ⟨c, hc, rfl⟩, ?_⟩
  refine List.mem_flatten.2 ⟨u.locs, List.mem_map_of_mem hu, ?_⟩
  cases u <;> simp only [reduceCtorEq] at h
  split at h
  · simp only [Option.some.injEq] at h; subst h; simp [Unif.locs]
  · simp at h

theorem locs_sub {cs : List Ctx} {c : Ctx} (hc : c ∈ cs) {u : Unif} (hu : u ∈ c.unifs) {l : Loc} (h : l ∈ u.locs) : l ∈ allLocs cs := by
  simp only [allLocs, List.mem_dedup, List.mem_flatten, List.mem_map]
  exact ⟨_, ⟨c, hc, rfl⟩, List.mem_flatten.2 ⟨u.locs, List.mem_map_of_mem hu, h⟩⟩

/-- Agreement outside the locations of a program. -/
def SameOut (cs : List Ctx) (s0 s : ET) : Prop := ∀ l, l ∉ allLocs cs → s l = s0 l

theorem SameOut.set {cs : List Ctx} {s0 : ET} (s : ET) (e : Loc) (n : TSet) (he : e ∈ allLocs cs) (h : SameOut cs s0 s) :
    SameOut cs s0 (s.set e n) := by
  intro l hl
  rw [ET.set_ne (by rintro rfl; exact hl he)]
  exact h l hl

theorem step_out {cs : List Ctx} {c : Ctx} (hc : c ∈ cs) {u : Unif} (hu : u ∈ c.unifs) {env : Env} {rt : RT} {strict : Bool} {s0 s s' : ET}
    (h : u.step env rt strict s = .ok s') (hs : SameOut cs s0 s) : SameOut cs s0 s' :=
  keep_step SameOut.set (fun _ hl => locs_sub hc hu hl) h hs

theorem propVars_out {cs : List Ctx} {c : Ctx} (hc : c ∈ cs) {s0 s s' : ET} (h : c.propVars s = .ok s') (hs : SameOut cs s0 s) :
    SameOut cs s0 s' := by
  intro l hl
  rcases propVars_ok h l with ⟨h1, _⟩ | ⟨x, t, _, h2, _⟩
  · rw [h1]; exact hs l hl
  · exact absurd (varLocs_sub hc h2) hl

end Scallop.Ty
