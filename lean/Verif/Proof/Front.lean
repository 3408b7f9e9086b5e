import Verif.Spec.Front
import Verif.Proof.Back
import Mathlib.Tactic.Tauto
import Mathlib.Tactic.Push

/-! Lemmas about desugaring. -/

namespace Scallop.Front

variable {F : Type} {X : Ext F} {D : DB F} {G : Aggs F}

/-! ## Lists of formulas -/

theorem allHold_iff {V σ} : ∀ fs : List (Formula F), Formula.Holds.allHold X D G V σ fs ↔ ∀ f ∈ fs, f.Holds X D G V σ
  | [] => by simp [Formula.Holds.allHold]
  | f :: fs => by simp [Formula.Holds.allHold, allHold_iff fs]

theorem anyHolds_iff {V σ} : ∀ fs : List (Formula F), Formula.Holds.anyHolds X D G V σ fs ↔ ∃ f ∈ fs, f.Holds X D G V σ
  | [] => by simp [Formula.Holds.anyHolds]
  | f :: fs => by simp [Formula.Holds.anyHolds, anyHolds_iff fs]

theorem allNamesIn_iff {P} : ∀ fs : List (Formula F), Formula.NamesIn.allNamesIn P fs ↔ ∀ f ∈ fs, f.NamesIn P
  | [] => by simp [Formula.NamesIn.allNamesIn]
  | f :: fs => by simp [Formula.NamesIn.allNamesIn, allNamesIn_iff fs]

theorem allWf_iff {g} : ∀ fs : List (Formula F), Formula.Wf.allWf X g fs ↔ ∀ f ∈ fs, f.Wf X g
  | [] => by simp [Formula.Wf.allWf]
  | f :: fs => by simp [Formula.Wf.allWf, allWf_iff fs]

theorem allTotal_iff : ∀ fs : List (Formula F), Formula.Total.allTotal X fs ↔ ∀ f ∈ fs, f.Total X
  | [] => by simp [Formula.Total.allTotal]
  | f :: fs => by simp [Formula.Total.allTotal, allTotal_iff fs]

/-! ## Values depend on the variables that occur -/

mutual
theorem evalsTo_congr {P : Name → Prop} {σ τ : Name → Val F} (h : ∀ x, P x → σ x = τ x) :
    ∀ (e : FExpr F), e.NamesIn P → ∀ v, e.EvalsTo X σ v ↔ e.EvalsTo X τ v
  | .const c, _, v => by simp [FExpr.EvalsTo]
  | .var x, hn, v => by simp [FExpr.EvalsTo, h x hn]
  | .wild, _, v => by simp [FExpr.EvalsTo]
  | .bin op a b, hn, v => by
    have ha := evalsTo_congr h a hn.1
    have hb := evalsTo_congr h b hn.2
    simp [FExpr.EvalsTo, ha, hb]
  | .un op a, hn, v => by
    have ha := evalsTo_congr h a hn
    simp [FExpr.EvalsTo, ha]
  | .ite c t e, hn, v => by
    have hc := evalsTo_congr h c hn.1
    have ht := evalsTo_congr h t hn.2.1
    have he := evalsTo_congr h e hn.2.2
    simp [FExpr.EvalsTo, hc, ht, he]
  | .call f args, hn, v => by
    have ha := allEvalTo_congr h args hn
    simp [FExpr.EvalsTo, ha]
  | .new f args, hn, v => by
    have ha := allEvalTo_congr h args hn
    simp [FExpr.EvalsTo, ha]
theorem allEvalTo_congr {P : Name → Prop} {σ τ : Name → Val F} (h : ∀ x, P x → σ x = τ x) :
    ∀ (es : List (FExpr F)), FExpr.AllNamesIn P es → ∀ vs, FExpr.AllEvalTo X σ es vs ↔ FExpr.AllEvalTo X τ es vs
  | [], _, vs => by simp [FExpr.AllEvalTo]
  | e :: es, hn, vs => by
    have ha := evalsTo_congr h e hn.1
    have hb := allEvalTo_congr h es hn.2
    simp [FExpr.AllEvalTo, ha, hb]
end

mutual
theorem matches_congr {P : Name → Prop} {σ τ : Name → Val F} (h : ∀ x, P x → σ x = τ x) :
    ∀ (e : Entity F), e.NamesIn P → ∀ v, e.Matches X D σ v ↔ e.Matches X D τ v
  | .expr e, hn, v => by simpa [Entity.Matches] using evalsTo_congr h e hn v
  | .object f as, hn, v => by
    have ha := allMatch_congr h as hn
    simp [Entity.Matches, ha]
theorem allMatch_congr {P : Name → Prop} {σ τ : Name → Val F} (h : ∀ x, P x → σ x = τ x) :
    ∀ (es : List (Entity F)), Entity.AllNamesIn P es → ∀ vs, Entity.AllMatch X D σ es vs ↔ Entity.AllMatch X D τ es vs
  | [], _, vs => by simp [Entity.AllMatch]
  | e :: es, hn, vs => by
    have ha := matches_congr h e hn.1
    have hb := allMatch_congr h es hn.2
    simp [Entity.AllMatch, ha, hb]
end

theorem agreeOn_congr {P V : Name → Prop} {σ τ : Name → Val F} (h : ∀ x, P x → σ x = τ x) (hV : ∀ x, V x → P x) (bs : List Name) :
    AgreeOn V bs σ = AgreeOn V bs τ := by
  funext ρ
  refine propext ⟨fun k x hx hb => (k x hx hb).trans (h x (hV x hx)), fun k x hx hb => (k x hx hb).trans (h x (hV x hx)).symm⟩

mutual
theorem holds_congr {P : Name → Prop} {σ τ : Name → Val F} (h : ∀ x, P x → σ x = τ x) :
    ∀ (f : Formula F), f.NamesIn P → ∀ V : Name → Prop, (∀ x, V x → P x) → (f.Holds X D G V σ ↔ f.Holds X D G V τ)
  | .atom p args, hn, V, hV => by simp [Formula.Holds, allEvalTo_congr h args hn]
  | .neg p args, hn, V, hV => by simp [Formula.Holds, allEvalTo_congr h args hn]
  | .case v e, hn, V, hV => by simp [Formula.Holds, h v hn.1, matches_congr h e hn.2]
  | .disj fs, hn, V, hV => by simpa [Formula.Holds] using (holdsAll_congr h fs hn V hV).2
  | .conj fs, hn, V, hV => by simpa [Formula.Holds] using (holdsAll_congr h fs hn V hV).1
  | .implies l r, hn, V, hV => by
    simp only [Formula.Holds, holds_congr h l hn.1 V hV, holds_congr h r hn.2 V hV]
  | .constraint e, hn, V, hV => by simp [Formula.Holds, evalsTo_congr h e hn]
  | .reduce left op args bindings body gv gb, hn, V, hV => by
    obtain ⟨h1, h2, h3, h4, h5, h6⟩ := hn
    have hg := (holdsAll_congr h gb h6 V hV).1
    have hl : left.map (Option.map σ) = left.map (Option.map τ) := by
      apply List.map_congr_left
      intro o ho
      cases o with
      | none => rfl
      | some b => simp [h b (h1 b ho)]
    have ha : args.map σ = args.map τ := List.map_congr_left (fun x hx => h x (h2 x hx))
    have hb : ∀ b, some b ∈ left → σ b = τ b := fun b hb => h b (h1 b hb)
    simp only [Formula.Holds, hg, hl, ha, agreeOn_congr h hV bindings]
    apply and_congr_right
    intro _
    split
    · refine forall_congr' fun r => forall_congr' fun hr => forall_congr' fun b => forall_congr' fun e => ?_
      subst e
      rw [hb b hr]
    · split
      · refine forall_congr' fun r => forall_congr' fun hr => forall_congr' fun b => forall_congr' fun e => ?_
        subst e
        rw [hb b hr]
      · rfl
  | .quant n negated op bindings body gv gb, hn, V, hV => by
    obtain ⟨h3, h4, h5, h6⟩ := hn
    have hg := (holdsAll_congr h gb h6 V hV).1
    simp only [Formula.Holds, hg, agreeOn_congr h hV bindings]
  | .range x lo hi inc, hn, V, hV => by
    simp [Formula.Holds, h x hn.1, evalsTo_congr h lo hn.2.1, evalsTo_congr h hi hn.2.2]
theorem holdsAll_congr {P : Name → Prop} {σ τ : Name → Val F} (h : ∀ x, P x → σ x = τ x) :
    ∀ (fs : List (Formula F)), Formula.NamesIn.allNamesIn P fs → ∀ V : Name → Prop, (∀ x, V x → P x) →
      (Formula.Holds.allHold X D G V σ fs ↔ Formula.Holds.allHold X D G V τ fs) ∧
      (Formula.Holds.anyHolds X D G V σ fs ↔ Formula.Holds.anyHolds X D G V τ fs)
  | [], _, V, hV => by simp [Formula.Holds.allHold, Formula.Holds.anyHolds]
  | f :: fs, hn, V, hV => by
    have h1 := holds_congr h f hn.1 V hV
    have h2 := holdsAll_congr h fs hn.2 V hV
    simp only [Formula.Holds.allHold, Formula.Holds.anyHolds, h1, h2, and_self]
end

/-! ## Negation -/

mutual
theorem negate_holds : ∀ (f : Formula F), f.Total X → ∀ f', f.negate = some f' →
    ∀ V σ, f'.Holds X D G V σ ↔ ¬ f.Holds X D G V σ
  | .atom p args, ht, f', e, V, σ => by
    simp only [Formula.negate, Option.some.injEq] at e
    subst e
    have := ht σ
    simp only [Formula.Holds, this, true_and]
  | .neg p args, ht, f', e, V, σ => by
    simp only [Formula.negate, Option.some.injEq] at e
    subst e
    have := ht σ
    simp only [Formula.Holds, this, true_and, not_not]
  | .case v en, _, f', e, _, _ => by simp [Formula.negate] at e
  | .disj fs, ht, f', e, V, σ => by
    simp only [Formula.negate, Option.map_eq_some_iff] at e
    obtain ⟨fs', e1, rfl⟩ := e
    exact (negateAll_holds fs ht fs' e1 V σ).1
  | .conj fs, ht, f', e, V, σ => by
    simp only [Formula.negate, Option.map_eq_some_iff] at e
    obtain ⟨fs', e1, rfl⟩ := e
    exact (negateAll_holds fs ht fs' e1 V σ).2
  | .implies l r, ht, f', e, V, σ => by
    simp only [Formula.negate, Option.map_eq_some_iff] at e
    obtain ⟨r', e1, rfl⟩ := e
    have := negate_holds r ht.2 r' e1 V σ
    simp only [Formula.Holds, Formula.Holds.allHold, this, and_true]
    tauto
  | .constraint c, _, f', e, _, _ => by simp [Formula.negate] at e
  | .reduce .., _, f', e, _, _ => by simp [Formula.negate] at e
  | .quant .., _, f', e, _, _ => by simp [Formula.negate] at e
  | .range .., _, f', e, _, _ => by simp [Formula.negate] at e
theorem negateAll_holds : ∀ (fs : List (Formula F)), Formula.Total.allTotal X fs → ∀ fs', Formula.negate.negateAll fs = some fs' →
    ∀ V σ, (Formula.Holds.allHold X D G V σ fs' ↔ ¬ Formula.Holds.anyHolds X D G V σ fs) ∧
      (Formula.Holds.anyHolds X D G V σ fs' ↔ ¬ Formula.Holds.allHold X D G V σ fs)
  | [], _, fs', e, V, σ => by
    simp only [Formula.negate.negateAll, Option.some.injEq] at e
    subst e
    simp [Formula.Holds.allHold, Formula.Holds.anyHolds]
  | f :: fs, ht, fs', e, V, σ => by
    simp only [Formula.negate.negateAll, Option.bind_eq_some_iff, Option.map_eq_some_iff] at e
    obtain ⟨f', e1, fs1, e2, rfl⟩ := e
    have h1 := negate_holds f ht.1 f' e1 V σ
    have h2 := negateAll_holds fs ht.2 fs1 e2 V σ
    simp only [Formula.Holds.allHold, Formula.Holds.anyHolds, h1, h2.1, h2.2]
    tauto
end

mutual
theorem negate_names {P : Name → Prop} : ∀ (f : Formula F), f.NamesIn P → ∀ f', f.negate = some f' → f'.NamesIn P
  | .atom p args, ht, f', e => by
    simp only [Formula.negate, Option.some.injEq] at e
    subst e; exact ht
  | .neg p args, ht, f', e => by
    simp only [Formula.negate, Option.some.injEq] at e
    subst e; exact ht
  | .case v en, _, f', e => by simp [Formula.negate] at e
  | .disj fs, ht, f', e => by
    simp only [Formula.negate, Option.map_eq_some_iff] at e
    obtain ⟨fs', e1, rfl⟩ := e
    exact negateAll_names fs ht fs' e1
  | .conj fs, ht, f', e => by
    simp only [Formula.negate, Option.map_eq_some_iff] at e
    obtain ⟨fs', e1, rfl⟩ := e
    exact negateAll_names fs ht fs' e1
  | .implies l r, ht, f', e => by
    simp only [Formula.negate, Option.map_eq_some_iff] at e
    obtain ⟨r', e1, rfl⟩ := e
    exact ⟨ht.1, negate_names r ht.2 r' e1, trivial⟩
  | .constraint c, _, f', e => by simp [Formula.negate] at e
  | .reduce .., _, f', e => by simp [Formula.negate] at e
  | .quant .., _, f', e => by simp [Formula.negate] at e
  | .range .., _, f', e => by simp [Formula.negate] at e
theorem negateAll_names {P : Name → Prop} : ∀ (fs : List (Formula F)), Formula.NamesIn.allNamesIn P fs →
    ∀ fs', Formula.negate.negateAll fs = some fs' → Formula.NamesIn.allNamesIn P fs'
  | [], _, fs', e => by
    simp only [Formula.negate.negateAll, Option.some.injEq] at e
    subst e; exact trivial
  | f :: fs, ht, fs', e => by
    simp only [Formula.negate.negateAll, Option.bind_eq_some_iff, Option.map_eq_some_iff] at e
    obtain ⟨f', e1, fs1, e2, rfl⟩ := e
    exact ⟨negate_names f ht.1 f' e1, negateAll_names fs ht.2 fs1 e2⟩
end

mutual
theorem negate_wf {g} : ∀ (f : Formula F), f.Wf X g → ∀ f', f.negate = some f' → f'.Wf X g
  | .atom p args, ht, f', e => by
    simp only [Formula.negate, Option.some.injEq] at e
    subst e; exact trivial
  | .neg p args, ht, f', e => by
    simp only [Formula.negate, Option.some.injEq] at e
    subst e; exact trivial
  | .case v en, _, f', e => by simp [Formula.negate] at e
  | .disj fs, ht, f', e => by
    simp only [Formula.negate, Option.map_eq_some_iff] at e
    obtain ⟨fs', e1, rfl⟩ := e
    exact negateAll_wf fs ht fs' e1
  | .conj fs, ht, f', e => by
    simp only [Formula.negate, Option.map_eq_some_iff] at e
    obtain ⟨fs', e1, rfl⟩ := e
    exact negateAll_wf fs ht fs' e1
  | .implies l r, ht, f', e => by
    simp only [Formula.negate, Option.map_eq_some_iff] at e
    obtain ⟨r', e1, rfl⟩ := e
    exact ⟨ht.1, negate_wf r ht.2.1 r' e1, trivial⟩
  | .constraint c, _, f', e => by simp [Formula.negate] at e
  | .reduce .., _, f', e => by simp [Formula.negate] at e
  | .quant .., _, f', e => by simp [Formula.negate] at e
  | .range .., _, f', e => by simp [Formula.negate] at e
theorem negateAll_wf {g} : ∀ (fs : List (Formula F)), Formula.Wf.allWf X g fs →
    ∀ fs', Formula.negate.negateAll fs = some fs' → Formula.Wf.allWf X g fs'
  | [], _, fs', e => by
    simp only [Formula.negate.negateAll, Option.some.injEq] at e
    subst e; exact trivial
  | f :: fs, ht, fs', e => by
    simp only [Formula.negate.negateAll, Option.bind_eq_some_iff, Option.map_eq_some_iff] at e
    obtain ⟨f', e1, fs1, e2, rfl⟩ := e
    exact ⟨negate_wf f ht.1 f' e1, negateAll_wf fs ht.2 fs1 e2⟩
end

mutual
theorem negate_weight : ∀ (f : Formula F) f', f.negate = some f' → f'.weight = f.weight
  | .atom p args, f', e => by
    simp only [Formula.negate, Option.some.injEq] at e
    subst e; rfl
  | .neg p args, f', e => by
    simp only [Formula.negate, Option.some.injEq] at e
    subst e; rfl
  | .case v en, f', e => by simp [Formula.negate] at e
  | .disj fs, f', e => by
    simp only [Formula.negate, Option.map_eq_some_iff] at e
    obtain ⟨fs', e1, rfl⟩ := e
    simp [Formula.weight, negateAll_weight fs fs' e1]
  | .conj fs, f', e => by
    simp only [Formula.negate, Option.map_eq_some_iff] at e
    obtain ⟨fs', e1, rfl⟩ := e
    simp [Formula.weight, negateAll_weight fs fs' e1]
  | .implies l r, f', e => by
    simp only [Formula.negate, Option.map_eq_some_iff] at e
    obtain ⟨r', e1, rfl⟩ := e
    simp [Formula.weight, Formula.weight.weightAll, negate_weight r r' e1]
  | .constraint c, f', e => by simp [Formula.negate] at e
  | .reduce .., f', e => by simp [Formula.negate] at e
  | .quant .., f', e => by simp [Formula.negate] at e
  | .range .., f', e => by simp [Formula.negate] at e
theorem negateAll_weight : ∀ (fs : List (Formula F)) fs', Formula.negate.negateAll fs = some fs' →
    Formula.weight.weightAll fs' = Formula.weight.weightAll fs
  | [], fs', e => by
    simp only [Formula.negate.negateAll, Option.some.injEq] at e
    subst e; rfl
  | f :: fs, fs', e => by
    simp only [Formula.negate.negateAll, Option.bind_eq_some_iff, Option.map_eq_some_iff] at e
    obtain ⟨f', e1, fs1, e2, rfl⟩ := e
    simp [Formula.weight.weightAll, negate_weight f f' e1, negateAll_weight fs fs1 e2]
end

/-! ## One visit -/

/-- The variables made by desugaring have the values they are meant to have. -/
def Complete (g : Nat → Bool) (σ : Name → Val F) : Prop :=
  (∀ n, σ (.quant n) = .bool (g n)) ∧ ∀ v t, σ v = .bool t → σ (.forallTemp v) = .bool !t

/-- Give the variables made by desugaring the values they are meant to have. -/
def complete (g : Nat → Bool) (σ : Name → Val F) : Name → Val F
  | .quant n => .bool (g n)
  | .forallTemp v =>
    match complete g σ v with
    | .bool t => .bool !t
    | w => w
  | x => σ x

theorem complete_complete (g : Nat → Bool) (σ : Name → Val F) : Complete g (complete g σ) := by
  refine ⟨fun n => rfl, fun v t e => ?_⟩
  simp [complete, e]

theorem complete_user (g : Nat → Bool) (σ : Name → Val F) (x : Name) (h : x.IsUser) : complete g σ x = σ x := by
  cases x <;> simp_all [complete, Name.IsUser]

/-- `f'` may replace `f`: it implies it, and is implied by it when the variables made by desugaring have the right values. -/
def Refines (X : Ext F) (D : DB F) (G : Aggs F) (g : Nat → Bool) (f f' : Formula F) : Prop :=
  ∀ V : Name → Prop, (∀ x, V x → x.IsUser) → ∀ σ, (f'.Holds X D G V σ → f.Holds X D G V σ) ∧
    (Complete g σ → f.Holds X D G V σ → f'.Holds X D G V σ)

theorem Refines.refl {g} (f : Formula F) : Refines X D G g f f := fun _ _ _ => ⟨id, fun _ => id⟩

theorem Refines.trans {g} {f₁ f₂ f₃ : Formula F} (h : Refines X D G g f₁ f₂) (h' : Refines X D G g f₂ f₃) : Refines X D G g f₁ f₃ :=
  fun V hV σ => ⟨fun k => (h V hV σ).1 ((h' V hV σ).1 k), fun c k => (h' V hV σ).2 c ((h V hV σ).2 c k)⟩

theorem not_eval {σ : Name → Val F} (b t : Name) :
    (FExpr.bin .eq (.var b) (.un .not (.var t)) : FExpr F).EvalsTo X σ (.bool true) ↔ ∃ s, σ t = .bool s ∧ σ b = .bool !s := by
  simp only [FExpr.EvalsTo]
  constructor
  · rintro ⟨x, y, rfl, ⟨z, rfl, h1⟩, h2⟩
    cases ht : σ t <;> simp [ht, evalUn] at h1
    subst h1
    cases hb : σ b <;> simp [hb, evalBin] at h2
    subst h2
    exact ⟨_, rfl, by rfl⟩
  · rintro ⟨s, h1, h2⟩
    exact ⟨_, .bool !s, rfl, ⟨_, rfl, by simp [h1, evalUn]⟩, by simp [h2, evalBin]⟩

theorem eq_bool_eval {σ : Name → Val F} (b : Name) (t : Bool) :
    (FExpr.bin .eq (.var b) (.const (.bool t)) : FExpr F).EvalsTo X σ (.bool true) ↔ σ b = .bool t := by
  simp only [FExpr.EvalsTo]
  constructor
  · rintro ⟨x, y, rfl, rfl, h2⟩
    cases hb : σ b <;> simp [hb, evalBin] at h2
    rw [h2]
  · intro h
    exact ⟨_, _, rfl, rfl, by simp [h, evalBin]⟩

theorem flat_args {σ : Name → Val F} (v : Name) : ∀ (as : List (Entity F)), (∀ a ∈ as, ∃ e, a = .expr e) → ∀ n,
    (Entity.args v as n).2.1 = [] ∧ ∀ vs, FExpr.AllEvalTo X σ (Entity.args v as n).1 vs ↔ Entity.AllMatch X D σ as vs
  | [], _, n => by simp [Entity.args, FExpr.AllEvalTo, Entity.AllMatch]
  | a :: as, h, n => by
    obtain ⟨e, rfl⟩ := h a (by simp)
    have ih := flat_args (σ := σ) v as (fun a ha => h a (by simp [ha])) n
    simp only [Entity.args, Entity.arg, ih.1, List.append_nil, FExpr.AllEvalTo, Entity.AllMatch, Entity.Matches, ih.2, implies_true,
      and_self]

theorem desugarCaseIs_refines {g} (hX : X.ExactFloats) (f : Formula F) (hf : f.Wf X g) :
    (desugarCaseIs f).Wf X g ∧ Refines X D G g f (desugarCaseIs f) := by
  unfold desugarCaseIs
  split
  · refine ⟨trivial, fun V hV σ => ?_⟩
    have key : ∀ v e, (Formula.constraint (.bin .eq (.var v) e) : Formula F).Holds X D G V σ ↔ (Formula.case v (.expr e)).Holds X D G V σ := by
      intro v e
      simp only [Formula.Holds, FExpr.EvalsTo, Entity.Matches]
      constructor
      · rintro ⟨x, y, rfl, h1, h2⟩
        rw [Back.evalBin_eq_iff hX] at h2
        rw [h2]; exact h1
      · intro h
        exact ⟨_, _, rfl, h, (Back.evalBin_eq_iff hX _ _).2 rfl⟩
    exact ⟨(key _ _).1, fun _ => (key _ _).2⟩
  · rename_i v fn as
    have hfl := fun σ => flat_args (X := X) (D := D) (σ := σ) v as hf 0
    refine ⟨?_, fun V hV σ => ?_⟩
    · simp only [(hfl (fun _ => .bool true)).1, List.nil_append]
      exact ⟨trivial, trivial⟩
    · have key : (Formula.conj ((Entity.args v as 0).2.1 ++ [.atom ("adt#" ++ fn) (.var v :: (Entity.args v as 0).1)]) : Formula F).Holds X D G V σ ↔
          (Formula.case v (.object fn as)).Holds X D G V σ := by
        simp only [(hfl σ).1, List.nil_append, Formula.Holds, Formula.Holds.allHold, and_true, Entity.Matches, FExpr.AllEvalTo, FExpr.EvalsTo, (hfl σ).2]
        constructor
        · rintro ⟨vs, ⟨w, ws, rfl, rfl, h1⟩, h2⟩
          exact ⟨ws, h1, h2⟩
        · rintro ⟨ws, h1, h2⟩
          exact ⟨_, ⟨_, ws, rfl, rfl, h1⟩, h2⟩
      exact ⟨key.1, fun _ => key.2⟩
  · exact ⟨hf, Refines.refl _⟩

theorem desugarForallExists_refines {g} (f : Formula F) (hf : f.Wf X g) :
    (desugarForallExists f).Wf X g ∧ Refines X D G g f (desugarForallExists f) := by
  unfold desugarForallExists
  split
  · rename_i n negated op bindings body gv gb
    obtain ⟨h1, h2, h3, h4, h5, h6⟩ := hf
    refine ⟨⟨⟨h2, h3, h4, h5, fun e _ => ⟨⟨_, rfl⟩, ?_⟩⟩, trivial, trivial⟩, fun V hV σ => ?_⟩
    · rcases h6 with h6 | h6
      · subst h6; simp at e
      · exact h6.2
    · simp only [Formula.Holds, Formula.Holds.allHold, eq_bool_eval, and_true, List.length_singleton, and_true, List.mem_singleton,
        forall_eq, Option.some.injEq, forall_eq']
      rcases h6 with rfl | ⟨rfl, _⟩
      · simp only [if_true]
        constructor
        · rintro ⟨⟨hg, t, e1, e2⟩, e3⟩
          rw [e1] at e3
          simp only [Val.bool.injEq] at e3
          subst e3
          exact ⟨hg, e2.symm.trans (by simp)⟩
        · rintro hc ⟨hg, e2⟩
          refine ⟨⟨hg, g n, hc.1 n, ?_⟩, ?_⟩
          · rw [e2, h1]; simp
          · rw [hc.1 n, h1]; simp
      · simp only [if_true, String.reduceEq, if_false]
        constructor
        · rintro ⟨⟨hg, t, e1, e2⟩, e3⟩
          rw [e1] at e3
          simp only [Val.bool.injEq] at e3
          subst e3
          exact ⟨hg, e2.symm.trans (by simp)⟩
        · rintro hc ⟨hg, e2⟩
          refine ⟨⟨hg, g n, hc.1 n, ?_⟩, ?_⟩
          · rw [e2, h1]; simp
          · rw [hc.1 n, h1]; simp
  · exact ⟨hf, Refines.refl _⟩

theorem range_holds {V : Name → Prop} {σ : Name → Val F} (hD : RangeDB D) (x : Name) (lo hi : FExpr F) (inc : Bool)
    (hb : inc = true → ∀ b, hi.EvalsTo X σ (.int .i32 b) → IntTy.i32.lo ≤ b ∧ b < IntTy.i32.hi) :
    (desugarRange (.range x lo hi inc)).Holds X D G V σ ↔ (Formula.range x lo hi inc).Holds X D G V σ := by
  have hD' : ∀ vs, D "range#i32" vs ↔ ∃ a b c, vs = [.int .i32 a, .int .i32 b, .int .i32 c] ∧ a ≤ c ∧ c < b := hD
  cases inc with
  | false =>
    simp only [desugarRange, Formula.Holds, FExpr.AllEvalTo, FExpr.EvalsTo, hD', if_neg (show ¬ (false = true) by simp)]
    constructor
    · rintro ⟨vs, ⟨w, ws, rfl, h1, w2, ws2, rfl, h2, w3, ws3, rfl, h3, rfl⟩, a, b, c, e, h4, h5⟩
      simp only [List.cons.injEq, and_true] at e
      obtain ⟨rfl, rfl, e⟩ := e
      exact ⟨a, b, c, h1, h2, h3 ▸ e, h4, h5⟩
    · rintro ⟨a, b, c, h1, h2, h3, h4, h5⟩
      exact ⟨_, ⟨_, _, rfl, h1, _, _, rfl, h2, _, _, rfl, rfl, rfl⟩, a, b, c, by rw [h3], h4, h5⟩
  | true =>
    simp only [desugarRange, Formula.Holds, FExpr.AllEvalTo, FExpr.EvalsTo, hD', if_true]
    constructor
    · rintro ⟨vs, ⟨w, ws, rfl, h1, w2, ws2, rfl, ⟨y, z, hy, rfl, hz⟩, w3, ws3, rfl, h3, rfl⟩, a, b, c, e, h4, h5⟩
      simp only [List.cons.injEq, and_true] at e
      obtain ⟨rfl, rfl, e⟩ := e
      cases y with
      | int k m =>
        simp only [evalBin] at hz
        split at hz
        · rename_i hk
          subst hk
          simp only [evalInt, Outcome.ok.injEq, Val.int.injEq, true_and] at hz
          have hbm := hb rfl m hy
          refine ⟨a, m, c, h1, hy, h3 ▸ e, h4, ?_⟩
          have : IntTy.i32.sat (m + 1) = m + 1 := by
            unfold IntTy.sat
            rw [if_neg (by omega), if_neg (by omega)]
          omega
        · exact absurd hz (by simp)
      | _ => simp [evalBin] at hz
    · rintro ⟨a, b, c, h1, h2, h3, h4, h5⟩
      have hbm := hb rfl b h2
      have : IntTy.i32.sat (b + 1) = b + 1 := by
        unfold IntTy.sat
        rw [if_neg (by omega), if_neg (by omega)]
      refine ⟨_, ⟨_, _, rfl, h1, .int .i32 (b + 1), _, rfl, ⟨_, _, h2, rfl, ?_⟩, _, _, rfl, rfl, rfl⟩, a, b + 1, c, ?_, h4, by omega⟩
      · simp [evalBin, evalInt, this]
      · rw [h3]

theorem desugarRange_refines {g} (hD : RangeDB D) (f : Formula F) (hf : f.Wf X g) :
    (desugarRange f).Wf X g ∧ Refines X D G g f (desugarRange f) := by
  cases f with
  | range x lo hi inc =>
    refine ⟨by cases inc <;> exact trivial, fun V hV σ => ?_⟩
    have := range_holds (G := G) (V := V) (σ := σ) hD x lo hi inc (fun e b hb => hf e σ b hb)
    exact ⟨this.1, fun _ => this.2⟩
  | _ => exact ⟨hf, Refines.refl _⟩

theorem transformForall_refines {g} (f f' : Formula F) (hf : f.Wf X g) (e : transformForall f = some f') :
    f'.Wf X g ∧ Refines X D G g f f' := by
  unfold transformForall at e
  split at e
  · rename_i b args bindings l r gv gb
    simp only [Option.map_eq_some_iff] at e
    obtain ⟨r', e1, rfl⟩ := e
    obtain ⟨h1, h2, h3, h4, h5⟩ := hf
    refine ⟨⟨trivial, ⟨⟨h1.1, negate_names r h1.2 r' e1, trivial⟩, h2, ⟨h3.1, negate_wf r h3.2.1 r' e1, trivial⟩, h4, by simp⟩, trivial⟩,
      fun V hV σ => ?_⟩
    have hn := fun V σ => negate_holds (D := D) (G := G) r h3.2.2.2 r' e1 V σ
    simp only [Formula.Holds, Formula.Holds.allHold, not_eval, and_true, List.length_singleton, List.mem_singleton, forall_eq,
      Option.some.injEq, forall_eq', if_true, String.reduceEq, false_and, if_false, true_and, hn]
    constructor
    · rintro ⟨⟨s, e2, e3⟩, hg, t, e4, e5⟩
      rw [e2] at e4
      simp only [Val.bool.injEq] at e4
      subst e4
      refine ⟨hg, _, e3, ?_⟩
      rw [← not_iff_not]
      simp only [Bool.not_eq_true', Bool.not_eq_false, e5]
      push Not
      simp only [and_comm, and_assoc]
    · rintro hc ⟨hg, t, e2, e3⟩
      refine ⟨⟨!t, hc.2 b t e2, by simpa using e2⟩, hg, !t, hc.2 b t e2, ?_⟩
      rw [← not_iff_not]
      simp only [Bool.not_eq_true', Bool.not_eq_false, e3]
      push Not
      rfl
  · simp only [Option.some.injEq] at e
    subst e
    exact ⟨hf, Refines.refl _⟩

theorem transformImplies_refines {g} (f f' : Formula F) (hf : f.Wf X g) (e : transformImplies f = some f') :
    f'.Wf X g ∧ Refines X D G g f f' := by
  unfold transformImplies at e
  split at e
  · rename_i l r
    simp only [Option.map_eq_some_iff] at e
    obtain ⟨l', e1, rfl⟩ := e
    obtain ⟨h1, h2, h3, h4⟩ := hf
    refine ⟨⟨negate_wf l h1 l' e1, h2, trivial⟩, fun V hV σ => ?_⟩
    have hn := negate_holds (D := D) (G := G) l h3 l' e1 V σ
    simp only [Formula.Holds, Formula.Holds.anyHolds, hn, or_false]
    exact ⟨by tauto, fun _ => by tauto⟩
  · simp only [Option.some.injEq] at e
    subst e
    exact ⟨hf, Refines.refl _⟩

theorem visit_refines {g} (hX : X.ExactFloats) (hD : RangeDB D) (f f' : Formula F) (hf : f.Wf X g) (e : visit f = some f') :
    f'.Wf X g ∧ Refines X D G g f f' := by
  unfold visit at e
  simp only [Option.bind_eq_some_iff] at e
  obtain ⟨f4, e4, e5⟩ := e
  obtain ⟨w1, r1⟩ := desugarCaseIs_refines (D := D) (G := G) hX f hf
  obtain ⟨w2, r2⟩ := desugarForallExists_refines (D := D) (G := G) _ w1
  obtain ⟨w3, r3⟩ := desugarRange_refines (G := G) hD _ w2
  obtain ⟨w4, r4⟩ := transformForall_refines (D := D) (G := G) _ _ w3 e4
  obtain ⟨w5, r5⟩ := transformImplies_refines (D := D) (G := G) _ _ w4 e5
  exact ⟨w5, r1.trans (r2.trans (r3.trans (r4.trans r5)))⟩

/-! ## The walk -/

theorem bind_ok {α β : Type} {o : Outcome α} {h : α → Outcome β} {b : β} (e : o.bind h = .ok b) : ∃ a, o = .ok a ∧ h a = .ok b := by
  cases o with
  | ok a => exact ⟨a, rfl, e⟩
  | undef => simp [Outcome.bind] at e
  | panic => simp [Outcome.bind] at e

theorem walkList_refines {g} {w : Formula F → Outcome (Formula F)}
    (hw : ∀ f f' : Formula F, f.Wf X g → w f = .ok f' → Refines X D G g f f') :
    ∀ fs fs' : List (Formula F), Formula.Wf.allWf X g fs → walkList w fs = .ok fs' →
      Refines X D G g (.conj fs) (.conj fs') ∧ Refines X D G g (.disj fs) (.disj fs')
  | [], fs', _, e => by
    simp only [walkList, Outcome.ok.injEq] at e
    subst e
    exact ⟨Refines.refl _, Refines.refl _⟩
  | f :: fs, fs', hf, e => by
    simp only [walkList] at e
    obtain ⟨f', e1, e⟩ := bind_ok e
    obtain ⟨fs1, e2, e⟩ := bind_ok e
    simp only [Outcome.ok.injEq] at e
    subst e
    have h1 := hw f f' hf.1 e1
    have h2 := walkList_refines hw fs fs1 hf.2 e2
    refine ⟨fun V hV σ => ?_, fun V hV σ => ?_⟩
    · have a := h1 V hV σ
      have b := h2.1 V hV σ
      simp only [Formula.Holds, Formula.Holds.allHold] at b ⊢
      exact ⟨fun k => ⟨a.1 k.1, b.1 k.2⟩, fun c k => ⟨a.2 c k.1, b.2 c k.2⟩⟩
    · have a := h1 V hV σ
      have b := h2.2 V hV σ
      simp only [Formula.Holds, Formula.Holds.anyHolds] at b ⊢
      exact ⟨fun k => k.imp a.1 b.1, fun c k => k.imp (a.2 c) (b.2 c)⟩

/-- What an aggregate sees of its body does not change. -/
theorem body_iff {g} {body body' : Formula F} (hr : Refines X D G g body body') (hn : body.NamesIn Name.IsUser)
    {V : Name → Prop} (hV : ∀ x, V x → x.IsUser) {bindings : List Name} (hb : ∀ x ∈ bindings, x.IsUser) {σ : Name → Val F}
    (Q : (Name → Val F) → Prop) (hQ : ∀ τ τ' : Name → Val F, (∀ x, x.IsUser → τ x = τ' x) → Q τ → Q τ') :
    (∃ τ, AgreeOn V bindings σ τ ∧ Q τ ∧ body'.Holds X D G (fun x => V x ∨ x ∈ bindings) τ) ↔
    (∃ τ, AgreeOn V bindings σ τ ∧ Q τ ∧ body.Holds X D G (fun x => V x ∨ x ∈ bindings) τ) := by
  have hV' : ∀ x, V x ∨ x ∈ bindings → x.IsUser := fun x hx => hx.elim (hV x) (hb x)
  constructor
  · rintro ⟨τ, h1, h2, h3⟩
    exact ⟨τ, h1, h2, (hr _ hV' τ).1 h3⟩
  · rintro ⟨τ, h1, h2, h3⟩
    refine ⟨complete g τ, fun x hx hnb => ?_, hQ τ _ (fun x hx => (complete_user g τ x hx).symm) h2,
      (hr _ hV' _).2 (complete_complete g τ) ?_⟩
    · rw [complete_user g τ x (hV x hx)]
      exact h1 x hx hnb
    · exact (holds_congr (fun x hx => complete_user g τ x hx) body hn _ hV').2 h3

theorem walkChildren_refines {g} {w : Formula F → Outcome (Formula F)}
    (hw : ∀ f f' : Formula F, f.Wf X g → w f = .ok f' → Refines X D G g f f')
    (f f' : Formula F) (hf : f.Wf X g) (hi : ¬ f.IsImplies) (hfa : ∀ n a b c d e h, f ≠ .quant n a b c d e h)
    (hall : ∀ l op as bs b gv gb, f = .reduce l op as bs b gv gb → op = "forall" → l.length ≠ 1)
    (e : walkChildren w f = .ok f') : Refines X D G g f f' := by
  cases f with
  | disj fs =>
    simp only [walkChildren] at e
    obtain ⟨fs1, e1, e⟩ := bind_ok e
    simp only [Outcome.ok.injEq] at e
    subst e
    exact (walkList_refines hw fs fs1 hf e1).2
  | conj fs =>
    simp only [walkChildren] at e
    obtain ⟨fs1, e1, e⟩ := bind_ok e
    simp only [Outcome.ok.injEq] at e
    subst e
    exact (walkList_refines hw fs fs1 hf e1).1
  | implies l r => exact absurd trivial hi
  | quant n a b c d e h => exact absurd rfl (hfa _ _ _ _ _ _ _)
  | reduce left op args bindings body gv gb =>
    simp only [walkChildren] at e
    obtain ⟨b1, e1, e⟩ := bind_ok e
    obtain ⟨g1, e2, e⟩ := bind_ok e
    simp only [Outcome.ok.injEq] at e
    subst e
    obtain ⟨h1, h2, h3, h4, h5⟩ := hf
    have hb := hw body b1 h3 e1
    have hg := (walkList_refines hw gb g1 h4 e2).1
    intro V hV σ
    have hgs := hg V hV σ
    simp only [Formula.Holds] at hgs
    have hE := body_iff (σ := σ) hb h1 hV h2 (fun _ => True) (fun _ _ _ _ => trivial)
    simp only [true_and] at hE
    have hS : ∀ vs, (∃ τ, AgreeOn V bindings σ τ ∧ bindings.map τ = vs ∧ b1.Holds X D G (fun x => V x ∨ x ∈ bindings) τ) ↔
        (∃ τ, AgreeOn V bindings σ τ ∧ bindings.map τ = vs ∧ body.Holds X D G (fun x => V x ∨ x ∈ bindings) τ) := by
      intro vs
      refine body_iff hb h1 hV h2 (fun τ => bindings.map τ = vs) (fun τ τ' ht e => ?_)
      rw [← e]
      exact List.map_congr_left (fun x hx => (ht x (h2 x hx)).symm)
    have hno : ¬ (op = "forall" ∧ left.length = 1) := fun k => hall _ _ _ _ _ _ _ rfl k.1 k.2
    simp only [Formula.Holds, hE, if_neg hno, hS]
    exact ⟨fun k => ⟨hgs.1 k.1, k.2⟩, fun c k => ⟨hgs.2 c k.1, k.2⟩⟩
  | _ =>
    simp only [walkChildren, Outcome.ok.injEq] at e
    subst e
    exact Refines.refl _

theorem desugarForallExists_shape (f : Formula F) : ∀ n a b c d e h, desugarForallExists f ≠ .quant n a b c d e h := by
  intro n a b c d e h k
  cases f <;> simp [desugarForallExists] at k

theorem desugarRange_quant (f : Formula F) (hf : ∀ n a b c d e h, f ≠ .quant n a b c d e h) :
    ∀ n a b c d e h, desugarRange f ≠ .quant n a b c d e h := by
  intro n a b c d e h k
  cases f with
  | range x lo hi inc => cases inc <;> simp [desugarRange] at k
  | quant => exact absurd rfl (hf _ _ _ _ _ _ _)
  | _ => simp [desugarRange] at k

theorem visit_shape {g} (f f' : Formula F) (hX : X.ExactFloats) (hD : RangeDB D) (hf : f.Wf X g) (e : visit f = some f') :
    ¬ f'.IsImplies ∧ (∀ n a b c d e h, f' ≠ .quant n a b c d e h) ∧
      (∀ l op as bs b gv gb, f' = .reduce l op as bs b gv gb → op = "forall" → l.length ≠ 1) := by
  unfold visit at e
  simp only [Option.bind_eq_some_iff] at e
  obtain ⟨f4, e4, e5⟩ := e
  obtain ⟨w1, r1⟩ := desugarCaseIs_refines (D := D) (G := fun _ _ _ _ => True) hX f hf
  obtain ⟨w2, r2⟩ := desugarForallExists_refines (D := D) (G := fun _ _ _ _ => True) _ w1
  obtain ⟨w3, r3⟩ := desugarRange_refines (G := fun _ _ _ _ => True) hD _ w2
  have hq := desugarRange_quant _ (desugarForallExists_shape (desugarCaseIs f))
  generalize desugarRange (desugarForallExists (desugarCaseIs f)) = f3 at e4 w3 hq
  have h4 : (∀ n a b c d e h, f4 ≠ .quant n a b c d e h) ∧
      (∀ l op as bs b gv gb, f4 = .reduce l op as bs b gv gb → op = "forall" → l.length ≠ 1) := by
    unfold transformForall at e4
    split at e4
    · simp only [Option.map_eq_some_iff] at e4
      obtain ⟨r', _, rfl⟩ := e4
      simp
    · rename_i hne
      simp only [Option.some.injEq] at e4
      subst e4
      refine ⟨hq, ?_⟩
      rintro l op as bs b gv gb rfl rfl hl
      obtain ⟨⟨b', rfl⟩, himp⟩ := w3.2.2.2.2 rfl hl
      cases b with
      | implies l r => exact hne _ _ _ _ _ _ _ rfl
      | _ => exact himp
  unfold transformImplies at e5
  split at e5
  · simp only [Option.map_eq_some_iff] at e5
    obtain ⟨r', _, rfl⟩ := e5
    simp [Formula.IsImplies]
  · rename_i hne
    simp only [Option.some.injEq] at e5
    subst e5
    refine ⟨?_, h4⟩
    cases f4 with
    | implies l r => exact absurd rfl (hne l r)
    | _ => exact id

theorem walk_refines {g} (hX : X.ExactFloats) (hD : RangeDB D) : ∀ (fuel : Nat) (f f' : Formula F), f.Wf X g →
    walk fuel f = .ok f' → Refines X D G g f f'
  | 0, f, f', _, e => by simp [walk] at e
  | fuel + 1, f, f', hf, e => by
    simp only [walk] at e
    split at e
    · simp at e
    · rename_i f1 e1
      obtain ⟨w1, r1⟩ := visit_refines (G := G) hX hD f f1 hf e1
      obtain ⟨s1, s2, s3⟩ := visit_shape f f1 hX hD hf e1
      exact r1.trans (walkChildren_refines (walk_refines hX hD fuel) f1 f' w1 s1 s2 s3 e)

end Scallop.Front
