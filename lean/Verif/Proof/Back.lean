import Verif.Spec.Back
import Mathlib.Data.List.Nodup
import Mathlib.Data.List.Perm.Subperm

/-!
# Proofs about the rule-level optimizations
-/

namespace Scallop.Back

variable {N F R : Type}

/-! ## Operators -/

theorem evalBin_eq_iff {X : Ext F} (hX : X.ExactFloats) (a b : Val F) :
    evalBin X .run .eq a b = .ok (.bool true) ↔ a = b := by
  cases a <;> cases b <;> simp [evalBin, evalInt, evalFloat, hX _ _] <;>
  · split
    · rename_i h; subst h; simp [evalInt, evalFloat, hX _ _]
    · rename_i h; simp [h]

theorem evalBin_neq_self {X : Ext F} (hX : X.ExactFloats) (a : Val F) :
    evalBin X .run .neq a a ≠ .ok (.bool true) := by
  have := fun x => (hX x x).mpr rfl
  cases a <;> simp [evalBin, evalInt, evalFloat, this]

theorem evalBin_compile {X : Ext F} (op : BinOp) (a b : Val F) (h : evalBin X .compile op a b ≠ .panic) :
    evalBin X .run op a b = evalBin X .compile op a b := by
  cases a <;> cases b <;> simp [evalBin] at h ⊢

theorem evalUn_compile {X : Ext F} (hC : X.CastAgrees) (op : UnOp) (a : Val F) (h : evalUn X .compile op a ≠ .panic) :
    evalUn X .run op a = evalUn X .compile op a := by
  cases op with
  | cast ty => exact (hC ty a h).symm
  | neg => cases a <;> rfl
  | pos => rfl
  | not => cases a <;> rfl

theorem mapM_const_val {args : List (Term N F)} {cs : List (Val F)} (h : args.mapM Term.const? = some cs) (σ : N → Val F) :
    args.map (Term.val σ) = cs := by
  induction args generalizing cs with
  | nil => simp at h; simp [h]
  | cons a as ih =>
    cases a with
    | var x => simp [Term.const?] at h
    | const c =>
      simp only [List.mapM_cons, Term.const?, Option.bind_eq_bind, Option.bind_some, Option.bind_eq_some_iff,
        Option.pure_def, Option.some.injEq] at h
      obtain ⟨cs', h1, rfl⟩ := h
      simp [Term.val, ih h1]

/-! ## Constant folding -/

/-- Whether a literal creates an entity from constants only. -/
def Lit.constNew : Lit N F R → Bool
  | .assign _ (.new _ args) => args.all (fun t => (Term.const? t).isSome)
  | _ => false

theorem mapM_const_all {args : List (Term N F)} {cs} (h : args.mapM Term.const? = some cs) :
    args.all (fun t => (Term.const? t).isSome) = true := by
  induction args generalizing cs with
  | nil => rfl
  | cons a as ih =>
    cases a with
    | var x => simp [Term.const?] at h
    | const c =>
      simp only [List.mapM_cons, Term.const?, Option.bind_eq_bind, Option.bind_some, Option.bind_eq_some_iff,
        Option.pure_def, Option.some.injEq] at h
      obtain ⟨cs', h1, _⟩ := h
      rw [List.all_cons, ih h1]; rfl

theorem foldResult_spec {X : Ext F} (hX : X.ExactFloats) (Red : R → List (Val F) → Prop) {x : N} {o : Outcome (Val F)}
    {l' : Lit N F R} (h : foldResult x o = some l') (σ : N → Val F) :
    (l'.Holds X Red σ ↔ o = .ok (σ x)) ∧ l'.uses σ = [] := by
  cases o with
  | ok v =>
    simp only [foldResult, Option.some.injEq] at h; subst h
    refine ⟨?_, rfl⟩
    simp only [Lit.Holds, COp.toBin, Term.val, evalBin_eq_iff hX, Outcome.ok.injEq]
    exact eq_comm
  | undef => simp only [foldResult, Option.some.injEq] at h; subst h; simp [Lit.Holds, Lit.uses]
  | panic => simp [foldResult] at h

theorem foldTest_spec {X : Ext F} (Red : R → List (Val F) → Prop) {o : Outcome (Val F)}
    {l' : Lit N F R} (h : foldTest o = some l') (σ : N → Val F) :
    (l'.Holds X Red σ ↔ o = .ok (.bool true)) ∧ l'.uses σ = [] := by
  cases o with
  | ok v =>
    cases v <;> simp [foldTest, Val.asBool?] at h
    subst h
    rename_i b
    cases b <;> simp [Lit.Holds, Lit.uses]
  | undef => simp only [foldTest, Option.some.injEq] at h; subst h; simp [Lit.Holds, Lit.uses]
  | panic => simp [foldTest] at h

theorem foldLit_spec [DecidableEq N] {X : Ext F} (hX : X.ExactFloats) (hC : X.CastAgrees) (Red : R → List (Val F) → Prop)
    {l l' : Lit N F R} (hn : l.constNew = false) (h : foldLit X l = some l') (σ : N → Val F) :
    (l'.Holds X Red σ ↔ l.Holds X Red σ) ∧ l'.uses σ = l.uses σ := by
  unfold foldLit at h
  split at h
  · rename_i x op a b
    obtain ⟨h1, h2⟩ := foldResult_spec hX Red h σ
    have hp : evalBin X .compile op a b ≠ .panic := by intro hp; rw [hp] at h; simp [foldResult] at h
    exact ⟨by rw [h1]; simp only [Lit.Holds, AExpr.val, Term.val, evalBin_compile op a b hp], by rw [h2]; rfl⟩
  · rename_i x op a
    obtain ⟨h1, h2⟩ := foldResult_spec hX Red h σ
    have hp : evalUn X .compile op a ≠ .panic := by intro hp; rw [hp] at h; simp [foldResult] at h
    exact ⟨by rw [h1]; simp only [Lit.Holds, AExpr.val, Term.val, evalUn_compile hC op a hp], by rw [h2]; rfl⟩
  · rename_i x t e
    obtain rfl := Option.some.inj h
    refine ⟨?_, rfl⟩
    simp only [Lit.Holds, COp.toBin, AExpr.val, Term.val, Val.asBool?, evalBin_eq_iff hX, Outcome.ok.injEq]
    exact eq_comm
  · rename_i x t e
    obtain rfl := Option.some.inj h
    refine ⟨?_, rfl⟩
    simp only [Lit.Holds, COp.toBin, AExpr.val, Term.val, Val.asBool?, evalBin_eq_iff hX, Outcome.ok.injEq]
    exact eq_comm
  · rename_i x f args
    split at h
    · rename_i cs hcs
      rw [Lit.constNew, mapM_const_all hcs] at hn
      cases hn
    · obtain rfl := Option.some.inj h
      exact ⟨Iff.rfl, rfl⟩
  · rename_i op a b
    obtain ⟨h1, h2⟩ := foldTest_spec (X := X) Red h σ
    have hp : evalBin X .compile op.toBin a b ≠ .panic := by intro hp; rw [hp] at h; simp [foldTest] at h
    exact ⟨by rw [h1]; simp only [Lit.Holds, Term.val, evalBin_compile _ a b hp], by rw [h2]; rfl⟩
  · rename_i v w
    by_cases hvw : v = w
    · subst hvw
      simp only [if_true, Option.some.injEq] at h; subst h
      refine ⟨?_, rfl⟩
      simp only [Lit.Holds, COp.toBin, Term.val, false_iff]
      exact evalBin_neq_self hX _
    · simp only [if_neg hvw, Option.some.injEq] at h; subst h
      exact ⟨Iff.rfl, rfl⟩
  · rename_i v w
    by_cases hvw : v = w
    · subst hvw
      simp only [if_true, Option.some.injEq] at h; subst h
      refine ⟨?_, rfl⟩
      simp only [Lit.Holds, COp.toBin, Term.val, evalBin_eq_iff hX]
    · simp only [if_neg hvw, Option.some.injEq] at h; subst h
      exact ⟨Iff.rfl, rfl⟩
  · rename_i a
    obtain ⟨h1, h2⟩ := foldTest_spec (X := X) Red h σ
    have hp : evalUn X .compile .not a ≠ .panic := by intro hp; rw [hp] at h; simp [foldTest] at h
    exact ⟨by rw [h1]; simp only [Lit.Holds, Term.val, evalUn_compile hC _ a hp], by rw [h2]; rfl⟩
  · obtain rfl := Option.some.inj h
    exact ⟨Iff.rfl, rfl⟩

theorem foldBody_spec [DecidableEq N] {X : Ext F} (hX : X.ExactFloats) (hC : X.CastAgrees) (Red : R → List (Val F) → Prop)
    {b b' : List (Lit N F R)} (hn : ∀ l ∈ b, l.constNew = false) (h : b.mapM (foldLit X) = some b') (σ : N → Val F) :
    ((∀ l ∈ b', l.Holds X Red σ) ↔ (∀ l ∈ b, l.Holds X Red σ)) ∧ b'.flatMap (Lit.uses σ) = b.flatMap (Lit.uses σ) := by
  induction b generalizing b' with
  | nil => simp at h; simp [h]
  | cons l b ih =>
    simp only [List.mapM_cons, Option.bind_eq_bind, Option.bind_eq_some_iff, Option.pure_def, Option.some.injEq] at h
    obtain ⟨l', h1, b'', h2, rfl⟩ := h
    obtain ⟨e1, e2⟩ := foldLit_spec hX hC Red (hn l (by simp)) h1 σ
    obtain ⟨e3, e4⟩ := ih (fun m hm => hn m (by simp [hm])) h2
    simp only [List.forall_mem_cons, List.flatMap_cons, e1, e2, e3, e4, and_self]

theorem constantFold_same [DecidableEq N] {X : Ext F} (hX : X.ExactFloats) (hC : X.CastAgrees) (Red : R → List (Val F) → Prop)
    {r r' : Rule N F R} (hn : ∀ l ∈ r.body, l.constNew = false) (h : constantFold X r = some r') :
    SameDerivations X Red r r' := by
  simp only [constantFold, Option.map_eq_some_iff] at h
  obtain ⟨b, h1, rfl⟩ := h
  intro hd us
  constructor
  · rintro ⟨σ, a1, a2, a3⟩
    obtain ⟨e1, e2⟩ := foldBody_spec hX hC Red hn h1 σ
    exact ⟨σ, e1.mpr a1, a2, by rw [← a3]; exact e2⟩
  · rintro ⟨σ, a1, a2, a3⟩
    obtain ⟨e1, e2⟩ := foldBody_spec hX hC Red hn h1 σ
    exact ⟨σ, e1.mp a1, a2, by rw [← a3]; exact e2.symm⟩

/-! ## The variables that cannot be substituted -/

section cannot
variable [DecidableEq N]

theorem mem_foldl_insert (vs : List N) (S : List N) (x : N) :
    x ∈ vs.foldl (fun S v => S.insert v) S ↔ x ∈ vs ∨ x ∈ S := by
  induction vs generalizing S with
  | nil => simp
  | cons v vs ih => rw [List.foldl_cons, ih]; simp only [List.mem_insert_iff, List.mem_cons]; tauto

theorem nodup_foldl_insert (vs : List N) (S : List N) (h : S.Nodup) : (vs.foldl (fun S v => S.insert v) S).Nodup := by
  induction vs generalizing S with
  | nil => exact h
  | cons v vs ih => exact ih _ (h.insert)

theorem cannotStep_spec (body : List (Lit N F R)) (S : List N) :
    (∀ x ∈ S, x ∈ cannotStep S body) ∧ (∀ x ∈ cannotStep S body, x ∈ S ∨ x ∈ collectable body) ∧
    (S.Nodup → (cannotStep S body).Nodup) ∧ (∀ r vs, Lit.reduce r vs ∈ body → ∀ v ∈ vs, v ∈ cannotStep S body) := by
  induction body generalizing S with
  | nil => exact ⟨fun x h => h, fun x h => .inl h, fun h => h, by simp⟩
  | cons l body ih =>
    have key : ∀ S1 : List N, cannotStep S (l :: body) = cannotStep S1 body →
        (∀ x ∈ S, x ∈ S1) → (∀ x ∈ S1, x ∈ S ∨ x ∈ collectable [l]) → (S.Nodup → S1.Nodup) →
        (∀ r vs, l = Lit.reduce r vs → ∀ v ∈ vs, v ∈ S1) →
        (∀ x ∈ S, x ∈ cannotStep S (l :: body)) ∧
        (∀ x ∈ cannotStep S (l :: body), x ∈ S ∨ x ∈ collectable (l :: body)) ∧
        (S.Nodup → (cannotStep S (l :: body)).Nodup) ∧
        (∀ r vs, Lit.reduce r vs ∈ l :: body → ∀ v ∈ vs, v ∈ cannotStep S (l :: body)) := by
      intro S1 e k1 k2 k3 k4
      obtain ⟨i1, i2, i3, i4⟩ := ih S1
      rw [e]
      have hc : collectable (l :: body) = collectable [l] ++ collectable body := by simp [collectable]
      refine ⟨fun x hx => i1 x (k1 x hx), fun x hx => ?_, fun h => i3 (k3 h), fun r vs hm v hv => ?_⟩
      · rw [hc, List.mem_append]
        rcases i2 x hx with h | h
        · rcases k2 x h with h | h
          · exact .inl h
          · exact .inr (.inl h)
        · exact .inr (.inr h)
      · rcases List.mem_cons.mp hm with h | h
        · exact i1 v (k4 r vs h.symm v hv)
        · exact i4 r vs h v hv
    cases l with
    | reduce r vs =>
      refine key (vs.foldl (fun S v => S.insert v) S) rfl ?_ ?_ (nodup_foldl_insert vs S) ?_
      · intro x hx; rw [mem_foldl_insert]; exact .inr hx
      · intro x hx; rw [mem_foldl_insert] at hx
        rcases hx with h | h
        · exact .inr (by simpa [collectable] using h)
        · exact .inl h
      · intro r' vs' e v hv
        cases e
        rw [mem_foldl_insert]; exact .inl hv
    | assign x e =>
      by_cases hc : e.vars.any (fun v => decide (v ∈ S)) = true
      · refine key (S.insert x) (by simp only [cannotStep, List.foldl_cons]; rw [if_pos hc]) ?_ ?_ (fun h => h.insert) (by intro r vs h; cases h)
        · intro y hy; exact List.mem_insert_of_mem hy
        · intro y hy
          rcases List.mem_insert_iff.mp hy with h | h
          · exact .inr (by simp [collectable, h])
          · exact .inl h
      · refine key S (by simp only [cannotStep, List.foldl_cons]; rw [if_neg hc]) (fun y h => h) (fun y h => .inl h)
          (fun h => h) (by intro r vs h; cases h)
    | atom a => exact key S rfl (fun y h => h) (fun y h => .inl h) (fun h => h) (by intro r vs h; cases h)
    | neg a => exact key S rfl (fun y h => h) (fun y h => .inl h) (fun h => h) (by intro r vs h; cases h)
    | cbin op a b => exact key S rfl (fun y h => h) (fun y h => .inl h) (fun h => h) (by intro r vs h; cases h)
    | cnot a => exact key S rfl (fun y h => h) (fun y h => .inl h) (fun h => h) (by intro r vs h; cases h)
    | tt => exact key S rfl (fun y h => h) (fun y h => .inl h) (fun h => h) (by intro r vs h; cases h)
    | ff => exact key S rfl (fun y h => h) (fun y h => .inl h) (fun h => h) (by intro r vs h; cases h)

theorem cannotLoop_isSome (body : List (Lit N F R)) (fuel : Nat) (S : List N) (hn : S.Nodup)
    (hs : ∀ x ∈ S, x ∈ collectable body) (hf : (collectable body).length + 1 ≤ fuel + S.length) :
    (cannotLoop body fuel S).isSome := by
  induction fuel generalizing S with
  | zero =>
    have := (List.subperm_of_subset hn (fun x hx => hs x hx)).length_le
    omega
  | succ fuel ih =>
    obtain ⟨h1, h2, h3, h4⟩ := cannotStep_spec body S
    rw [cannotLoop]
    split
    · rfl
    · rename_i hlt
      refine ih _ (h3 hn) (fun x hx => ?_) (by omega)
      rcases h2 x hx with h | h
      · exact hs x h
      · exact h

theorem cannotSubstitute_isSome (body : List (Lit N F R)) : (cannotSubstitute body).isSome :=
  cannotLoop_isSome body _ [] (by simp) (by simp) (by simp)

theorem cannotLoop_reduce (body : List (Lit N F R)) (fuel : Nat) (S C : List N) (h : cannotLoop body fuel S = some C)
    (r : R) (vs : List N) (hr : Lit.reduce r vs ∈ body) : ∀ v ∈ vs, v ∈ C := by
  induction fuel generalizing S with
  | zero => simp [cannotLoop] at h
  | succ fuel ih =>
    rw [cannotLoop] at h
    split at h
    · obtain rfl := Option.some.inj h
      exact (cannotStep_spec body S).2.2.2 r vs hr
    · exact ih _ h

end cannot

/-! ## Constant propagation -/

section constProp
variable [DecidableEq N] [DecidableEq F]

theorem valEq_iff {X : Ext F} (hX : X.ExactFloats) (a b : Val F) : valEq X a b = true ↔ a = b := by
  unfold valEq
  split
  · simp [hX _ _]
  · simp

/-- One step of the collection of substitutions. -/
def collectStep (X : Ext F) (cannot : List N) (s : List (N × Val F) × Bool) (l : Lit N F R) : List (N × Val F) × Bool :=
  match constEq? cannot l with
  | some (v, c) =>
    match s.1.lookup v with
    | some c' => (s.1, s.2 || !valEq X c' c)
    | none => ((v, c) :: s.1, s.2)
  | none => s

theorem collectConst_eq (X : Ext F) (cannot : List N) (body : List (Lit N F R)) :
    collectConst X cannot body = body.foldl (collectStep X cannot) ([], false) := rfl

theorem collect_spec {X : Ext F} (hX : X.ExactFloats) (cannot : List N) (body : List (Lit N F R))
    (s : List (N × Val F) × Bool) (σ : N → Val F)
    (hs : ∀ v c, s.1.lookup v = some c → σ v = c) (hf : s.2 = false)
    (hb : ∀ l ∈ body, ∀ v c, constEq? cannot l = some (v, c) → σ v = c) :
    (∀ v c, (body.foldl (collectStep X cannot) s).1.lookup v = some c → σ v = c) ∧
      (body.foldl (collectStep X cannot) s).2 = false := by
  induction body generalizing s with
  | nil => exact ⟨hs, hf⟩
  | cons l body ih =>
    rw [List.foldl_cons]
    refine ih _ ?_ ?_ (fun m hm => hb m (by simp [hm]))
    · intro v c
      unfold collectStep
      split
      · rename_i w d hd
        split
        · exact hs v c
        · intro h
          rw [List.lookup_cons] at h
          split at h
          · rename_i hvw
            have : v = w := by simpa using hvw
            subst this
            rw [hb l (by simp) _ _ hd]; exact Option.some.inj h
          · exact hs v c h
      · exact hs v c
    · unfold collectStep
      split
      · rename_i w d hd
        split
        · rename_i c' hc'
          have : c' = d := by rw [← hs _ _ hc', hb l (by simp) _ _ hd]
          simp [hf, (valEq_iff hX c' d).mpr this]
        · exact hf
      · exact hf

theorem collect_covers {X : Ext F} (hX : X.ExactFloats) (cannot : List N) (body : List (Lit N F R))
    (s : List (N × Val F) × Bool) :
    (∀ v c, s.1.lookup v = some c → (body.foldl (collectStep X cannot) s).1.lookup v = some c) ∧
    ((body.foldl (collectStep X cannot) s).2 = false → s.2 = false ∧
      ∀ l ∈ body, ∀ v c, constEq? cannot l = some (v, c) → (body.foldl (collectStep X cannot) s).1.lookup v = some c) := by
  induction body generalizing s with
  | nil => simp
  | cons l body ih =>
    rw [List.foldl_cons]
    obtain ⟨i1, i2⟩ := ih (collectStep X cannot s l)
    have step : (∀ v c, s.1.lookup v = some c → (collectStep X cannot s l).1.lookup v = some c) ∧
        ((collectStep X cannot s l).2 = false → s.2 = false ∧
          ∀ v c, constEq? cannot l = some (v, c) → (collectStep X cannot s l).1.lookup v = some c) := by
      unfold collectStep
      split
      · rename_i w d hd
        split
        · rename_i c' hc'
          refine ⟨fun v c h => h, fun h => ?_⟩
          simp only [Bool.or_eq_false_iff, Bool.not_eq_false'] at h
          refine ⟨h.1, fun v c e => ?_⟩
          rw [hd] at e
          cases e
          rw [hc', (valEq_iff hX _ _).mp h.2]
        · rename_i hnone
          refine ⟨fun v c h => ?_, fun h => ⟨h, fun v c e => ?_⟩⟩
          · rw [List.lookup_cons]
            split
            · rename_i hvw
              have : v = w := by simpa using hvw
              subst this
              rw [hnone] at h; cases h
            · exact h
          · rw [hd] at e; cases e
            simp
      · rename_i hd
        exact ⟨fun v c h => h, fun h => ⟨h, fun v c e => by rw [hd] at e; cases e⟩⟩
    refine ⟨fun v c h => i1 v c (step.1 v c h), fun h => ?_⟩
    obtain ⟨j1, j2⟩ := i2 h
    obtain ⟨k1, k2⟩ := step.2 j1
    refine ⟨k1, fun m hm v c e => ?_⟩
    rcases List.mem_cons.mp hm with rfl | hm
    · exact i1 v c (k2 v c e)
    · exact j2 m hm v c e

/-- Keys of the substitution come from the body. -/
theorem collect_keys (X : Ext F) (cannot : List N) (body : List (Lit N F R)) (s : List (N × Val F) × Bool) (v : N) (c : Val F)
    (h : (body.foldl (collectStep X cannot) s).1.lookup v = some c) :
    s.1.lookup v = some c ∨ ∃ l ∈ body, constEq? cannot l = some (v, c) := by
  induction body generalizing s with
  | nil => exact .inl h
  | cons l body ih =>
    rw [List.foldl_cons] at h
    rcases ih _ h with h' | ⟨m, hm, e⟩
    · unfold collectStep at h'
      split at h'
      · rename_i w d hd
        split at h'
        · exact .inl h'
        · rw [List.lookup_cons] at h'
          split at h'
          · rename_i hvw
            have : v = w := by simpa using hvw
            subst this
            obtain rfl := Option.some.inj h'
            exact .inr ⟨l, by simp, hd⟩
          · exact .inl h'
      · exact .inl h'
    · exact .inr ⟨m, by simp [hm], e⟩

theorem constEq_not_cannot {cannot : List N} {l : Lit N F R} {v : N} {c : Val F} (h : constEq? cannot l = some (v, c)) :
    v ∉ cannot ∧ (l = .cbin .eq (.var v) (.const c) ∨ l = .cbin .eq (.const c) (.var v)) := by
  unfold constEq? at h
  split at h
  · split at h
    · cases h
    · rename_i hn
      simp only [Option.some.injEq, Prod.mk.injEq] at h
      obtain ⟨rfl, rfl⟩ := h
      exact ⟨hn, .inl rfl⟩
  · split at h
    · cases h
    · rename_i hn
      simp only [Option.some.injEq, Prod.mk.injEq] at h
      obtain ⟨rfl, rfl⟩ := h
      exact ⟨hn, .inr rfl⟩
  · cases h

theorem constEq_holds {X : Ext F} (hX : X.ExactFloats) (Red : R → List (Val F) → Prop) {cannot : List N} {l : Lit N F R}
    {v : N} {c : Val F} (h : constEq? cannot l = some (v, c)) (σ : N → Val F) :
    (l.Holds X Red σ ↔ σ v = c) ∧ l.uses σ = [] := by
  rcases (constEq_not_cannot h).2 with rfl | rfl
  · simp [Lit.Holds, COp.toBin, Term.val, evalBin_eq_iff hX, Lit.uses]
  · simp [Lit.Holds, COp.toBin, Term.val, evalBin_eq_iff hX, Lit.uses, eq_comm]

omit [DecidableEq F] in
theorem AExpr.val_map (X : Ext F) (f : Term N F → Term N F) (σ τ : N → Val F)
    (h : ∀ t, (f t).val τ = t.val σ) (e : AExpr N F) : (e.map f).val X τ = e.val X σ := by
  have hm : ∀ args : List (Term N F), (args.map f).map (Term.val τ) = args.map (Term.val σ) := by
    intro args; simp [h]
  cases e <;> simp only [AExpr.map, AExpr.val, h, hm]

omit [DecidableEq N] [DecidableEq F] in
theorem Atom.map_args (f : Term N F → Term N F) (σ τ : N → Val F) (h : ∀ t, (f t).val τ = t.val σ) (a : Atom N F) :
    (a.map f).args.map (Term.val τ) = a.args.map (Term.val σ) := by
  simp [Atom.map, h]

omit [DecidableEq N] [DecidableEq F] in
theorem Head.inst_map (f : Term N F → Term N F) (σ τ : N → Val F) (h : ∀ t, (f t).val τ = t.val σ) (hd : Head N F) :
    (hd.map f).inst τ = hd.inst σ := by
  cases hd with
  | atom a => simp only [Head.map, Head.inst, Atom.inst, Atom.map_args f σ τ h]; rfl
  | disj as =>
    simp only [Head.map, Head.inst, List.map_map, Prod.mk.injEq, true_and]
    refine List.map_congr_left (fun a _ => ?_)
    simp only [Function.comp, Atom.inst, Atom.map_args f σ τ h]; rfl

/-- Whether an assignment creates an entity. -/
def Lit.isNew : Lit N F R → Bool
  | .assign _ (.new _ _) => true
  | _ => false

theorem propLit_spec (X : Ext F) (Red : R → List (Val F) → Prop) (s : List (N × Val F)) (σ τ : N → Val F)
    (hval : ∀ t, (substConst s t).val τ = Term.val σ t) (l : Lit N F R)
    (hred : ∀ r vs, l = .reduce r vs → vs.map τ = vs.map σ)
    (hass : ∀ x e, l = .assign x e → s.lookup x = none) :
    ((propLit s l).Holds X Red τ ↔ l.Holds X Red σ) ∧ (propLit s l).uses τ = l.uses σ := by
  cases l with
  | atom a => simp only [propLit, Lit.Holds, Lit.uses, Atom.map_args _ σ τ hval, true_and]; rfl
  | neg a => simp only [propLit, Lit.Holds, Lit.uses, Atom.map_args _ σ τ hval, true_and]; rfl
  | assign x e =>
    have hx := hass x e rfl
    have hvx : τ x = σ x := by have := hval (.var x); simpa [substConst, hx, Term.val] using this
    rw [propLit, hx]
    refine ⟨?_, ?_⟩
    · simp only [Option.isSome_none, Bool.false_eq_true, if_false, Lit.Holds, AExpr.val_map X _ σ τ hval, hvx]
    · have hm : ∀ args : List (Term N F), (args.map (substConst s)).map (Term.val τ) = args.map (Term.val σ) := by
        intro args; simp [hval]
      cases e <;> simp only [Option.isSome_none, Bool.false_eq_true, if_false, AExpr.map, Lit.uses, hm]
  | cbin op a b => simp only [propLit, Lit.Holds, Lit.uses, hval, and_self]
  | cnot a => simp only [propLit, Lit.Holds, Lit.uses, hval, and_self]
  | reduce r vs => simp only [propLit, Lit.Holds, Lit.uses, hred r vs rfl, and_self]
  | tt => exact ⟨Iff.rfl, rfl⟩
  | ff => exact ⟨Iff.rfl, rfl⟩

theorem flatMap_filter_map {α β : Type} (p : α → Bool) (g : α → α) (u v : α → List β) (b : List α)
    (h1 : ∀ a ∈ b, p a = true → u (g a) = v a) (h2 : ∀ a ∈ b, p a = false → v a = []) :
    ((b.filter p).map g).flatMap u = b.flatMap v := by
  induction b with
  | nil => rfl
  | cons a b ih =>
    have ih' := ih (fun x hx => h1 x (by simp [hx])) (fun x hx => h2 x (by simp [hx]))
    cases hp : p a
    · simp [List.filter_cons, hp, h2 a (by simp) hp, ih']
    · simp [List.filter_cons, hp, h1 a (by simp) hp, ih']

/-- The assignment of values under which the original rule is read, from one for the rewritten rule. -/
def extend (s : List (N × Val F)) (τ : N → Val F) (v : N) : Val F :=
  match s.lookup v with
  | some c => c
  | none => τ v

omit [DecidableEq F] in
theorem substConst_extend (s : List (N × Val F)) (τ : N → Val F) (t : Term N F) :
    (substConst s t).val τ = t.val (extend s τ) := by
  cases t with
  | const c => rfl
  | var v => simp only [substConst, Term.val, extend]; cases s.lookup v <;> rfl

omit [DecidableEq F] in
theorem substConst_agree (s : List (N × Val F)) (σ : N → Val F) (h : ∀ v c, s.lookup v = some c → σ v = c) (t : Term N F) :
    (substConst s t).val σ = t.val σ := by
  cases t with
  | const c => rfl
  | var v =>
    simp only [substConst, Term.val]
    cases hv : s.lookup v with
    | none => rfl
    | some c => exact (h v c hv).symm

/-- Constant propagation never loses a derivation, provided it does not drop an assignment that creates an entity. -/
theorem constantProp_complete {X : Ext F} (hX : X.ExactFloats) (Red : R → List (Val F) → Prop) {r r' : Rule N F R}
    (h : constantProp X r = some r')
    (hnew : ∀ x e, Lit.assign x e ∈ r.body → Lit.isNew (R := R) (.assign x e) = true →
      ∀ c, Lit.cbin .eq (.var x) (.const c) ∉ r.body ∧ Lit.cbin .eq (.const c) (.var x) ∉ r.body)
    (hd) (us) (hder : Derives X Red r hd us) : Derives X Red r' hd us := by
  simp only [constantProp, Option.map_eq_some_iff] at h
  obtain ⟨cannot, hcan, rfl⟩ := h
  obtain ⟨σ, a1, a2, a3⟩ := hder
  have hsub := collect_spec hX cannot r.body ([], false) σ (by simp) rfl
    (fun l hl v c e => ((constEq_holds hX Red e σ).1).mp (a1 l hl))
  rw [← collectConst_eq] at hsub
  simp only [hsub.2, Bool.false_eq_true, if_false]
  have hval := substConst_agree (collectConst X cannot r.body).1 σ hsub.1
  refine ⟨σ, ?_, ?_, ?_⟩
  · intro l hl
    obtain ⟨m, hm, rfl⟩ := List.mem_map.mp hl
    have hm' := (List.mem_filter.mp hm).1
    cases m with
    | assign x e =>
      rw [propLit]
      split
      · trivial
      · have := a1 _ hm'
        simp only [Lit.Holds, AExpr.val_map X _ σ σ hval] at this ⊢
        exact this
    | _ => exact ((propLit_spec X Red _ σ σ hval _ (fun _ _ _ => rfl) (by intro x e h; cases h)).1).mpr (a1 _ hm')
  · rw [← a2]; exact Head.inst_map _ σ σ hval r.head
  · rw [← a3]
    refine flatMap_filter_map _ _ _ _ _ ?_ ?_
    · intro l hl _
      cases l with
      | assign x e =>
        by_cases hx : ((collectConst X cannot r.body).1.lookup x).isSome
        · rw [propLit, if_pos hx]
          by_cases hn : Lit.isNew (R := R) (.assign x e) = true
          · obtain ⟨c, hc⟩ := Option.isSome_iff_exists.mp hx
            rcases collect_keys X cannot r.body ([], false) x c hc with h | ⟨m, hm, e'⟩
            · simp at h
            · rcases (constEq_not_cannot e').2 with rfl | rfl
              · exact absurd hm (hnew x e hl hn c).1
              · exact absurd hm (hnew x e hl hn c).2
          · cases e <;> simp [Lit.isNew, Lit.uses] at hn ⊢
        · have hx' : (collectConst X cannot r.body).1.lookup x = none := by
            rw [← Option.not_isSome_iff_eq_none]; exact hx
          exact (propLit_spec X Red _ σ σ hval _ (fun _ _ _ => rfl) (by intro x' e' h; cases h; exact hx')).2
      | _ => exact (propLit_spec X Red _ σ σ hval _ (fun _ _ _ => rfl) (by intro x e h; cases h)).2
    · intro l hl hp
      cases hq : constEq? cannot l with
      | none => simp [hq] at hp
      | some vc => exact (constEq_holds hX Red hq σ).2

/-- Constant propagation does not add derivations when no assigned variable is required to equal a constant. -/
theorem constantProp_sound {X : Ext F} (hX : X.ExactFloats) (Red : R → List (Val F) → Prop) {r r' : Rule N F R}
    (h : constantProp X r = some r')
    (hass : ∀ x e, Lit.assign x e ∈ r.body →
      ∀ c, Lit.cbin .eq (.var x) (.const c) ∉ r.body ∧ Lit.cbin .eq (.const c) (.var x) ∉ r.body)
    (hd) (us) (hder : Derives X Red r' hd us) : Derives X Red r hd us := by
  simp only [constantProp, Option.map_eq_some_iff] at h
  obtain ⟨cannot, hcan, rfl⟩ := h
  obtain ⟨τ, a1, a2, a3⟩ := hder
  by_cases hf : (collectConst X cannot r.body).2 = true
  · simp only [hf, if_true] at a1
    exact absurd (a1 .ff (by simp)) (by simp [Lit.Holds])
  have hf' : (collectConst X cannot r.body).2 = false := by simpa using hf
  simp only [hf', Bool.false_eq_true, if_false] at a1 a2 a3
  set s := (collectConst X cannot r.body).1 with hs
  have hcov := (collect_covers hX cannot r.body ([], false)).2 (by rw [← collectConst_eq]; exact hf')
  rw [← collectConst_eq] at hcov
  have hlook : ∀ x c, s.lookup x = some c → ∃ l ∈ r.body, constEq? cannot l = some (x, c) := by
    intro x c hx
    rcases collect_keys X cannot r.body ([], false) x c hx with h | h
    · simp at h
    · exact h
  have hval := substConst_extend s τ
  have hpl : ∀ l ∈ r.body, ((propLit s l).Holds X Red τ ↔ l.Holds X Red (extend s τ)) ∧
      (propLit s l).uses τ = l.uses (extend s τ) := by
    intro l hl
    refine propLit_spec X Red s (extend s τ) τ hval l ?_ ?_
    · rintro r0 vs rfl
      refine List.map_congr_left (fun v hv => ?_)
      have hvc := cannotLoop_reduce r.body _ [] cannot hcan r0 vs hl v hv
      have : s.lookup v = none := by
        cases hv' : s.lookup v with
        | none => rfl
        | some c =>
          obtain ⟨l', _, e'⟩ := hlook v c hv'
          exact absurd hvc (constEq_not_cannot e').1
      simp [extend, this]
    · rintro x e rfl
      cases hx : s.lookup x with
      | none => rfl
      | some c =>
        obtain ⟨l', hl', e'⟩ := hlook x c hx
        rcases (constEq_not_cannot e').2 with rfl | rfl
        · exact absurd hl' (hass x e hl c).1
        · exact absurd hl' (hass x e hl c).2
  refine ⟨extend s τ, ?_, ?_, ?_⟩
  · intro l hl
    cases hq : constEq? cannot l with
    | none => exact ((hpl l hl).1).mp (a1 _ (List.mem_map_of_mem (List.mem_filter.mpr ⟨hl, by simp [hq]⟩)))
    | some vc =>
      obtain ⟨v, c⟩ := vc
      rw [(constEq_holds hX Red hq _).1]
      have := hcov.2 l hl v c hq
      simp only [extend, hs, this]
  · rw [← a2]; exact (Head.inst_map _ (extend s τ) τ hval r.head).symm
  · rw [← a3]
    refine (flatMap_filter_map _ _ _ _ _ ?_ ?_).symm
    · intro l hl _; exact (hpl l hl).2
    · intro l hl hp
      cases hq : constEq? cannot l with
      | none => simp [hq] at hp
      | some vc => exact (constEq_holds hX Red hq _).2

end constProp

/-! ## Equality propagation -/

section eqProp
variable [DecidableEq N]

/-- One step of the collection of variable substitutions. -/
def varStep (cannot bounded : List N) (s : List (N × N)) (l : Lit N F R) : List (N × N) :=
  match varEq? cannot bounded l with
  | some (v, w) =>
    match s.lookup v with
    | some t => insertMap s w t
    | none =>
      match s.lookup w with
      | some t => insertMap s v t
      | none => insertMap s v w
  | none => s

theorem collectVar_eq (cannot bounded : List N) (body : List (Lit N F R)) :
    collectVar cannot bounded body = body.foldl (varStep cannot bounded) [] := rfl

theorem lookup_filter_ne (s : List (N × N)) (k x : N) (h : x ≠ k) :
    (s.filter (fun p => !(p.1 == k))).lookup x = s.lookup x := by
  induction s with
  | nil => rfl
  | cons p s ih =>
    by_cases hp : p.1 = k
    · have : x ≠ p.1 := by rw [hp]; exact h
      rw [List.filter_cons]
      simp only [hp, beq_self_eq_true, Bool.not_true, Bool.false_eq_true, if_false, ih]
      obtain ⟨a, b⟩ := p
      have hb : (x == a) = false := by simpa using this
      rw [List.lookup_cons, hb]
    · rw [List.filter_cons]
      have : (!(p.1 == k)) = true := by simpa using hp
      obtain ⟨a, b⟩ := p
      rw [if_pos this, List.lookup_cons, List.lookup_cons, ih]

theorem lookup_insertMap (s : List (N × N)) (k v x : N) :
    (insertMap s k v).lookup x = if x = k then some v else s.lookup x := by
  unfold insertMap
  rw [List.lookup_cons]
  by_cases h : x = k
  · simp [h]
  · have hb : (x == k) = false := by simpa using h
    rw [hb, if_neg h]
    exact lookup_filter_ne s k x h

theorem varEq_spec {cannot bounded : List N} {l : Lit N F R} {v w : N} (h : varEq? cannot bounded l = some (v, w)) :
    l = .cbin .eq (.var v) (.var w) ∧ v ∉ cannot ∧ w ∉ cannot ∧ ¬(v ∈ bounded ∧ w ∈ bounded) := by
  unfold varEq? at h
  split at h
  · split at h
    · cases h
    · split at h
      · cases h
      · rename_i h1 h2
        simp only [Option.some.injEq, Prod.mk.injEq] at h
        obtain ⟨rfl, rfl⟩ := h
        exact ⟨rfl, fun h => h1 (.inl h), fun h => h1 (.inr h), h2⟩
  · cases h

theorem varStep_agree (cannot bounded : List N) (body : List (Lit N F R)) (s : List (N × N)) {V : Type} (σ : N → V)
    (hs : ∀ v w, s.lookup v = some w → σ v = σ w)
    (hb : ∀ l ∈ body, ∀ v w, varEq? cannot bounded l = some (v, w) → σ v = σ w) :
    ∀ v w, (body.foldl (varStep cannot bounded) s).lookup v = some w → σ v = σ w := by
  induction body generalizing s with
  | nil => exact hs
  | cons l body ih =>
    rw [List.foldl_cons]
    refine ih _ ?_ (fun m hm => hb m (by simp [hm]))
    intro x y hx
    unfold varStep at hx
    split at hx
    · rename_i v w hvw
      have e := hb l (by simp) v w hvw
      split at hx
      · rename_i t ht
        rw [lookup_insertMap] at hx
        split at hx
        · rename_i hxw
          obtain rfl := Option.some.inj hx
          rw [hxw, ← e]; exact hs _ _ ht
        · exact hs x y hx
      · split at hx
        · rename_i t ht
          rw [lookup_insertMap] at hx
          split at hx
          · rename_i hxv
            obtain rfl := Option.some.inj hx
            rw [hxv, e]; exact hs _ _ ht
          · exact hs x y hx
        · rw [lookup_insertMap] at hx
          split at hx
          · rename_i hxv
            obtain rfl := Option.some.inj hx
            rw [hxv, e]
          · exact hs x y hx
    · exact hs x y hx

theorem varStep_keys (cannot bounded : List N) (body : List (Lit N F R)) (s : List (N × N)) (x y : N)
    (h : (body.foldl (varStep cannot bounded) s).lookup x = some y) : s.lookup x = some y ∨ x ∉ cannot := by
  induction body generalizing s with
  | nil => exact .inl h
  | cons l body ih =>
    rw [List.foldl_cons] at h
    rcases ih _ h with hx | hx
    · unfold varStep at hx
      split at hx
      · rename_i v w hvw
        obtain ⟨_, hv, hw, _⟩ := varEq_spec hvw
        split at hx
        · rw [lookup_insertMap] at hx
          split at hx
          · rename_i e; exact .inr (e ▸ hw)
          · exact .inl hx
        · split at hx
          · rw [lookup_insertMap] at hx
            split at hx
            · rename_i e; exact .inr (e ▸ hv)
            · exact .inl hx
          · rw [lookup_insertMap] at hx
            split at hx
            · rename_i e; exact .inr (e ▸ hv)
            · exact .inl hx
      · exact .inl hx
    · exact .inr hx

theorem renameLit_spec (X : Ext F) (Red : R → List (Val F) → Prop) (s : List (N × N)) (σ τ : N → Val F)
    (hv : ∀ v, τ (renameVar s v) = σ v) (l : Lit N F R) (hred : ∀ r vs, l = .reduce r vs → vs.map τ = vs.map σ) :
    ((renameLit s l).Holds X Red τ ↔ l.Holds X Red σ) ∧ (renameLit s l).uses τ = l.uses σ := by
  have hval : ∀ t : Term N F, (renameTerm s t).val τ = t.val σ := by
    intro t; cases t with
    | const c => rfl
    | var v => exact hv v
  cases l with
  | atom a => simp only [renameLit, Lit.Holds, Lit.uses, Atom.map_args _ σ τ hval, true_and]; rfl
  | neg a => simp only [renameLit, Lit.Holds, Lit.uses, Atom.map_args _ σ τ hval, true_and]; rfl
  | assign x e =>
    have hm : ∀ args : List (Term N F), (args.map (renameTerm s)).map (Term.val τ) = args.map (Term.val σ) := by
      intro args; simp [hval]
    refine ⟨?_, ?_⟩
    · simp only [renameLit, Lit.Holds, AExpr.val_map X _ σ τ hval, hv]
    · cases e <;> simp only [renameLit, AExpr.map, Lit.uses, hm]
  | cbin op a b => simp only [renameLit, Lit.Holds, Lit.uses, hval, and_self]
  | cnot a => simp only [renameLit, Lit.Holds, Lit.uses, hval, and_self]
  | reduce r vs => simp only [renameLit, Lit.Holds, Lit.uses, hred r vs rfl, and_self]
  | tt => exact ⟨Iff.rfl, rfl⟩
  | ff => exact ⟨Iff.rfl, rfl⟩

theorem renameVar_agree (s : List (N × N)) {V : Type} (σ : N → V) (h : ∀ v w, s.lookup v = some w → σ v = σ w) (v : N) :
    σ (renameVar s v) = σ v := by
  unfold renameVar
  split
  · rename_i w hw; exact (h v w hw).symm
  · rfl

theorem varEq_holds {X : Ext F} (hX : X.ExactFloats) (Red : R → List (Val F) → Prop) {cannot bounded : List N} {l : Lit N F R}
    {v w : N} (h : varEq? cannot bounded l = some (v, w)) (σ : N → Val F) :
    (l.Holds X Red σ ↔ σ v = σ w) ∧ l.uses σ = [] := by
  obtain ⟨rfl, _⟩ := varEq_spec h
  simp [Lit.Holds, COp.toBin, Term.val, evalBin_eq_iff hX, Lit.uses]

theorem propagateEquality_complete {X : Ext F} (hX : X.ExactFloats) (Red : R → List (Val F) → Prop)
    (foreign : String → Option Nat) {r r' : Rule N F R} (h : propagateEquality foreign r = some r')
    (hd) (us) (hder : Derives X Red r hd us) : Derives X Red r' hd us := by
  simp only [propagateEquality, Option.map_eq_some_iff] at h
  obtain ⟨bounded, _, rfl⟩ := h
  obtain ⟨σ, a1, a2, a3⟩ := hder
  have hag : ∀ v w, (collectVar (reduceVars r.body) bounded r.body).lookup v = some w → σ v = σ w :=
    varStep_agree _ _ r.body [] σ (by simp) (fun l hl v w e => ((varEq_holds hX Red e σ).1).mp (a1 l hl))
  have hren := renameVar_agree _ σ hag
  have hl := fun l => renameLit_spec X Red (collectVar (reduceVars r.body) bounded r.body) σ σ hren l (fun _ _ _ => rfl)
  refine ⟨σ, ?_, ?_, ?_⟩
  · intro l hm
    obtain ⟨m, hmem, rfl⟩ := List.mem_map.mp hm
    exact ((hl m).1).mpr (a1 m (List.mem_filter.mp hmem).1)
  · rw [← a2]
    refine Head.inst_map _ σ σ ?_ r.head
    intro t; cases t with
    | const c => rfl
    | var v => exact hren v
  · rw [← a3]
    refine flatMap_filter_map _ _ _ _ _ (fun l _ _ => (hl l).2) ?_
    intro l _ hp
    cases hq : varEq? (reduceVars r.body) bounded l with
    | none => simp [hq] at hp
    | some vw => exact (varEq_holds hX Red hq σ).2

theorem propagateEquality_sound {X : Ext F} (hX : X.ExactFloats) (Red : R → List (Val F) → Prop)
    (foreign : String → Option Nat) {r r' : Rule N F R} (h : propagateEquality foreign r = some r')
    (hgood : ∀ bounded, boundedVars foreign r.body = some bounded → ∀ l ∈ r.body, ∀ v w,
      varEq? (reduceVars r.body) bounded l = some (v, w) →
      renameVar (collectVar (reduceVars r.body) bounded r.body) v = renameVar (collectVar (reduceVars r.body) bounded r.body) w)
    (hd) (us) (hder : Derives X Red r' hd us) : Derives X Red r hd us := by
  simp only [propagateEquality, Option.map_eq_some_iff] at h
  obtain ⟨bounded, hb, rfl⟩ := h
  obtain ⟨τ, a1, a2, a3⟩ := hder
  have hgood := hgood bounded hb
  set s := collectVar (reduceVars r.body) bounded r.body with hs
  have hl : ∀ l ∈ r.body, ((renameLit s l).Holds X Red τ ↔ l.Holds X Red (fun v => τ (renameVar s v))) ∧
      (renameLit s l).uses τ = l.uses (fun v => τ (renameVar s v)) := by
    intro l hl
    refine renameLit_spec X Red s _ τ (fun _ => rfl) l ?_
    rintro r0 vs rfl
    refine List.map_congr_left (fun v hv => ?_)
    have hvr : v ∈ reduceVars r.body := by
      simp only [reduceVars, List.mem_flatMap]; exact ⟨_, hl, hv⟩
    have : s.lookup v = none := by
      cases hx : s.lookup v with
      | none => rfl
      | some w =>
        rcases varStep_keys (reduceVars r.body) bounded r.body [] v w hx with h | h
        · simp at h
        · exact absurd hvr h
    simp [renameVar, this]
  refine ⟨fun v => τ (renameVar s v), ?_, ?_, ?_⟩
  · intro l hm
    cases hq : varEq? (reduceVars r.body) bounded l with
    | none => exact ((hl l hm).1).mp (a1 _ (List.mem_map_of_mem (List.mem_filter.mpr ⟨hm, by simp [hq]⟩)))
    | some vw =>
      obtain ⟨v, w⟩ := vw
      rw [(varEq_holds hX Red hq _).1, hgood l hm v w hq]
  · rw [← a2]
    refine (Head.inst_map _ (fun v => τ (renameVar s v)) τ ?_ r.head).symm
    intro t; cases t <;> rfl
  · rw [← a3]
    refine (flatMap_filter_map _ _ _ _ _ (fun l h _ => (hl l h).2) ?_).symm
    intro l _ hp
    cases hq : varEq? (reduceVars r.body) bounded l with
    | none => simp [hq] at hp
    | some vw => exact (varEq_holds hX Red hq _).2

/-- The variable-to-variable equalities written in a rule body. -/
def varEqs (body : List (Lit N F R)) : List (N × N) :=
  body.filterMap (fun l => match l with | .cbin .eq (.var v) (.var w) => some (v, w) | _ => none)

theorem good_of_disjoint_aux (cannot bounded : List N) (body : List (Lit N F R)) (s : List (N × N))
    (hp : (varEqs body).Pairwise (fun p q => p.1 ≠ q.1 ∧ p.1 ≠ q.2 ∧ p.2 ≠ q.1 ∧ p.2 ≠ q.2))
    (hs : ∀ p ∈ varEqs body, s.lookup p.1 = none ∧ s.lookup p.2 = none) :
    (∀ x, (∀ p ∈ varEqs body, x ≠ p.1) → (body.foldl (varStep cannot bounded) s).lookup x = s.lookup x) ∧
    (∀ l ∈ body, ∀ v w, varEq? cannot bounded l = some (v, w) →
      renameVar (body.foldl (varStep cannot bounded) s) v = w ∧ renameVar (body.foldl (varStep cannot bounded) s) w = w) := by
  induction body generalizing s with
  | nil => exact ⟨fun x _ => rfl, by simp⟩
  | cons l body ih =>
    rw [List.foldl_cons]
    cases hq : varEq? cannot bounded l with
    | none =>
      have hst : varStep cannot bounded s l = s := by simp [varStep, hq]
      rw [hst]
      have hsub : List.Sublist (varEqs body) (varEqs (l :: body)) := by
        unfold varEqs; rw [List.filterMap_cons]; split
        · exact List.Sublist.refl _
        · exact List.sublist_cons_self _ _
      obtain ⟨i1, i2⟩ := ih s (hp.sublist hsub) (fun p hpm => hs p (hsub.subset hpm))
      refine ⟨fun x hx => i1 x (fun p hpm => hx p (hsub.subset hpm)), fun m hm v w e => ?_⟩
      rcases List.mem_cons.mp hm with rfl | hm
      · rw [hq] at e; cases e
      · exact i2 m hm v w e
    | some vw =>
      obtain ⟨v, w⟩ := vw
      obtain ⟨rfl, _⟩ := varEq_spec hq
      have hve : varEqs (Lit.cbin .eq (.var v) (.var w) :: body : List (Lit N F R)) = (v, w) :: varEqs body := by
        simp [varEqs]
      rw [hve] at hp hs ⊢
      obtain ⟨hp1, hp2⟩ := List.pairwise_cons.mp hp
      obtain ⟨hv, hw⟩ := hs (v, w) (by simp)
      simp only at hv hw
      have hst : varStep cannot bounded s (Lit.cbin .eq (.var v) (.var w) : Lit N F R) = insertMap s v w := by
        simp [varStep, hq, hv, hw]
      rw [hst]
      obtain ⟨i1, i2⟩ := ih (insertMap s v w) hp2 (by
        intro p hpm
        obtain ⟨n1, n2, n3, n4⟩ := hp1 p hpm
        obtain ⟨m1, m2⟩ := hs p (by simp [hpm])
        simp only at n1 n2
        rw [lookup_insertMap, lookup_insertMap, if_neg (Ne.symm n1), if_neg (Ne.symm n2)]
        exact ⟨m1, m2⟩)
      refine ⟨fun x hx => ?_, fun m hm a b e => ?_⟩
      · rw [i1 x (fun p hpm => hx p (by simp [hpm])), lookup_insertMap, if_neg (hx (v, w) (by simp))]
      · rcases List.mem_cons.mp hm with rfl | hm
        · rw [hq] at e
          simp only [Option.some.injEq, Prod.mk.injEq] at e
          obtain ⟨rfl, rfl⟩ := e
          have h1 := i1 v (fun p hpm => (hp1 p hpm).1)
          have h2 := i1 w (fun p hpm => (hp1 p hpm).2.2.1)
          rw [lookup_insertMap] at h1 h2
          simp only [if_true] at h1
          refine ⟨by simp [renameVar, h1], ?_⟩
          by_cases hwv : w = v
          · rw [if_pos hwv] at h2; simp [renameVar, h2]
          · rw [if_neg hwv, hw] at h2; simp [renameVar, h2]
        · exact i2 m hm a b e

theorem good_of_disjoint (foreign : String → Option Nat) (r : Rule N F R)
    (hp : (varEqs r.body).Pairwise (fun p q => p.1 ≠ q.1 ∧ p.1 ≠ q.2 ∧ p.2 ≠ q.1 ∧ p.2 ≠ q.2)) :
    ∀ bounded, boundedVars foreign r.body = some bounded → ∀ l ∈ r.body, ∀ v w,
      varEq? (reduceVars r.body) bounded l = some (v, w) →
      renameVar (collectVar (reduceVars r.body) bounded r.body) v =
        renameVar (collectVar (reduceVars r.body) bounded r.body) w := by
  intro bounded _ l hl v w e
  obtain ⟨h1, h2⟩ := (good_of_disjoint_aux (reduceVars r.body) bounded r.body [] hp (by simp)).2 l hl v w e
  rw [collectVar_eq, h1, h2]

/-- The number of assignments in a body. -/
def lefts (body : List (Lit N F R)) : List N :=
  body.filterMap (fun l => match l with | .assign x _ => some x | _ => none)

theorem boundStep_spec (body : List (Lit N F R)) (S : List N) :
    ∃ A : List N, boundStep S body = A ++ S ∧ A.Nodup ∧ (∀ x ∈ A, x ∈ lefts body ∧ x ∉ S) := by
  induction body generalizing S with
  | nil => exact ⟨[], rfl, by simp, by simp⟩
  | cons l body ih =>
    have hsame : ∀ S1, boundStep S (l :: body) = boundStep S1 body → S1 = S →
        (∀ x ∈ lefts body, x ∈ lefts (l :: body)) →
        ∃ A : List N, boundStep S (l :: body) = A ++ S ∧ A.Nodup ∧ (∀ x ∈ A, x ∈ lefts (l :: body) ∧ x ∉ S) := by
      rintro S1 e rfl hsub
      obtain ⟨A, h1, h2, h3⟩ := ih S1
      exact ⟨A, by rw [e, h1], h2, fun x hx => ⟨hsub x (h3 x hx).1, (h3 x hx).2⟩⟩
    have hsub : ∀ x ∈ lefts body, x ∈ lefts (l :: body) := by
      intro x hx
      unfold lefts at hx ⊢
      rw [List.filterMap_cons]; split
      · exact hx
      · exact List.mem_cons_of_mem _ hx
    cases l with
    | assign x e =>
      by_cases h1 : x ∈ S
      · exact hsame S (by simp only [boundStep, List.foldl_cons]; rw [if_pos h1]) rfl hsub
      · by_cases h2 : e.vars.all (fun v => decide (v ∈ S)) = true
        · obtain ⟨A, e1, e2, e3⟩ := ih (x :: S)
          refine ⟨A ++ [x], ?_, ?_, ?_⟩
          · have : boundStep S (Lit.assign x e :: body : List (Lit N F R)) = boundStep (x :: S) body := by
              simp only [boundStep, List.foldl_cons]; rw [if_neg h1, if_pos h2]
            rw [this, e1]; simp
          · rw [List.nodup_append]
            refine ⟨e2, by simp, ?_⟩
            intro a ha b hb hab
            simp only [List.mem_singleton] at hb
            subst hb hab
            exact (e3 a ha).2 (by simp)
          · intro y hy
            rcases List.mem_append.mp hy with h | h
            · exact ⟨hsub y (e3 y h).1, fun hs => (e3 y h).2 (by simp [hs])⟩
            · simp only [List.mem_singleton] at h
              subst h
              exact ⟨by simp [lefts], h1⟩
        · exact hsame S (by simp only [boundStep, List.foldl_cons]; rw [if_neg h1, if_neg h2]) rfl hsub
    | _ => exact hsame S rfl rfl hsub

theorem boundLoop_isSome (body : List (Lit N F R)) (S0 : List N) (fuel : Nat) (A : List N) (hn : A.Nodup)
    (hs : ∀ x ∈ A, x ∈ lefts body) (hf : (lefts body).length + 1 ≤ fuel + A.length) :
    (boundLoop body fuel (A ++ S0)).isSome := by
  induction fuel generalizing A with
  | zero =>
    have := (List.subperm_of_subset hn (fun x hx => hs x hx)).length_le
    omega
  | succ fuel ih =>
    obtain ⟨B, h1, h2, h3⟩ := boundStep_spec body (A ++ S0)
    rw [boundLoop]
    split
    · rfl
    · rename_i hlt
      rw [h1]
      rw [h1] at hlt
      have hB : B ≠ [] := by rintro rfl; simp at hlt
      have hBl : 0 < B.length := List.length_pos_iff.mpr hB
      rw [← List.append_assoc]
      refine ih (B ++ A) ?_ ?_ ?_
      · rw [List.nodup_append]
        refine ⟨h2, hn, ?_⟩
        intro a ha b hb hab
        subst hab
        exact (h3 a ha).2 (by simp [hb])
      · intro x hx
        rcases List.mem_append.mp hx with h | h
        · exact (h3 x h).1
        · exact hs x h
      · simp only [List.length_append]; omega

theorem boundedVars_isSome (foreign : String → Option Nat) (body : List (Lit N F R)) : (boundedVars foreign body).isSome := by
  have hl : (lefts body).length ≤ body.length := List.length_filterMap_le _ _
  have := boundLoop_isSome body (atomBound foreign body) (body.length + 1) [] (by simp) (by simp) (by simp; omega)
  simpa [boundedVars] using this

end eqProp

end Scallop.Back
