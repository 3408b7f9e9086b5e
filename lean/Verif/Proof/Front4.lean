import Verif.Proof.Front3

/-! # Lemmas on the flattening of literals and rules -/

namespace Scallop.Front

open Scallop.Back (Term Atom AExpr COp Lit Head Rule)

variable {F : Type} {X : Ext F} {D : DB F} {G : Aggs F}

/-- Not a variable made for a wildcard. -/
def NotWc (x : Name) : Prop := ∀ n, x ≠ .wc n

theorem IsSource.notWc {x : Name} (h : x.IsSource) : NotWc x := by
  rintro n rfl
  exact h

mutual
theorem flatten_noWild : ∀ (e : FExpr F), e.NoWild → e.NamesIn NotWc → ∀ n, TermIn NotWc (e.flatten n).1 ∧ LitsIn NotWc (e.flatten n).2.1
  | .const c, _, _, n => ⟨fun x e => by simp [FExpr.flatten] at e, .nil⟩
  | .var x, _, h, n => ⟨termIn_var h, .nil⟩
  | .wild, h, _, n => absurd h (by simp [FExpr.NoWild])
  | .bin op a b, h, hn, n => by
    obtain ⟨a1, a2⟩ := flatten_noWild a h.1 hn.1 (n + 1)
    obtain ⟨b1, b2⟩ := flatten_noWild b h.2 hn.2 (a.flatten (n + 1)).2.2
    have hl : NotWc (.flat n) := by simp [NotWc]
    exact ⟨termIn_var hl, .cons ⟨hl, a1, b1⟩ (.append (hints_in hl a1 b1) (.append a2 b2))⟩
  | .un op a, h, hn, n => by
    simp only [FExpr.NoWild] at h
    simp only [FExpr.NamesIn] at hn
    obtain ⟨a1, a2⟩ := flatten_noWild a h hn (n + 1)
    have hl : NotWc (.flat n) := by simp [NotWc]
    exact ⟨termIn_var hl, .cons ⟨hl, a1⟩ a2⟩
  | .ite c t e, h, hn, n => by
    obtain ⟨a1, a2⟩ := flatten_noWild c h.1 hn.1 (n + 1)
    obtain ⟨b1, b2⟩ := flatten_noWild t h.2.1 hn.2.1 (c.flatten (n + 1)).2.2
    obtain ⟨c1, c2⟩ := flatten_noWild e h.2.2 hn.2.2 (t.flatten (c.flatten (n + 1)).2.2).2.2
    have hl : NotWc (.flat n) := by simp [NotWc]
    exact ⟨termIn_var hl, .cons ⟨hl, a1, b1, c1⟩ (.append a2 (.append b2 c2))⟩
  | .call f args, h, hn, n => by
    simp only [FExpr.NoWild] at h
    simp only [FExpr.NamesIn] at hn
    obtain ⟨a1, a2⟩ := flattenAll_noWild args h hn (n + 1)
    have hl : NotWc (.flat n) := by simp [NotWc]
    exact ⟨termIn_var hl, .cons ⟨hl, a1⟩ a2⟩
  | .new f args, h, hn, n => by
    simp only [FExpr.NoWild] at h
    simp only [FExpr.NamesIn] at hn
    obtain ⟨a1, a2⟩ := flattenAll_noWild args h hn (n + 1)
    have hl : NotWc (.flat n) := by simp [NotWc]
    exact ⟨termIn_var hl, .cons ⟨hl, a1⟩ a2⟩
theorem flattenAll_noWild : ∀ (es : List (FExpr F)), FExpr.AllNoWild es → FExpr.AllNamesIn NotWc es → ∀ n,
    (∀ t ∈ (FExpr.flattenAll es n).1, TermIn NotWc t) ∧ LitsIn NotWc (FExpr.flattenAll es n).2.1
  | [], _, _, n => ⟨by simp [FExpr.flattenAll], .nil⟩
  | e :: es, h, hn, n => by
    obtain ⟨a1, a2⟩ := flatten_noWild e h.1 hn.1 n
    obtain ⟨b1, b2⟩ := flattenAll_noWild es h.2 hn.2 (e.flatten n).2.2
    simp only [FExpr.flattenAll, List.mem_cons, forall_eq_or_imp]
    exact ⟨⟨a1, b1⟩, .append a2 b2⟩
end

mutual
/-- An expression without wildcards has at most one value. -/
theorem evalsTo_det {σ : Name → Val F} : ∀ (e : FExpr F), e.NoWild → ∀ v w, e.EvalsTo X σ v → e.EvalsTo X σ w → v = w
  | .const c, _, v, w, h1, h2 => by simp only [FExpr.EvalsTo] at h1 h2; rw [h1, h2]
  | .var x, _, v, w, h1, h2 => by simp only [FExpr.EvalsTo] at h1 h2; rw [h1, h2]
  | .wild, h, _, _, _, _ => absurd h (by simp [FExpr.NoWild])
  | .bin op a b, h, v, w, h1, h2 => by
    simp only [FExpr.EvalsTo] at h1 h2
    obtain ⟨x, y, a1, a2, a3⟩ := h1
    obtain ⟨x', y', b1, b2, b3⟩ := h2
    rw [evalsTo_det a h.1 x x' a1 b1, evalsTo_det b h.2 y y' a2 b2, b3] at a3
    simpa using a3.symm
  | .un op a, h, v, w, h1, h2 => by
    simp only [FExpr.NoWild] at h
    simp only [FExpr.EvalsTo] at h1 h2
    obtain ⟨x, a1, a3⟩ := h1
    obtain ⟨x', b1, b3⟩ := h2
    rw [evalsTo_det a h x x' a1 b1, b3] at a3
    simpa using a3.symm
  | .ite c t e, h, v, w, h1, h2 => by
    simp only [FExpr.EvalsTo] at h1 h2
    obtain ⟨b, x, y, a1, a2, a3, rfl⟩ := h1
    obtain ⟨b', x', y', b1, b2, b3, rfl⟩ := h2
    have e1 := evalsTo_det c h.1 _ _ a1 b1
    simp only [Val.bool.injEq] at e1
    rw [e1, evalsTo_det t h.2.1 _ _ a2 b2, evalsTo_det e h.2.2 _ _ a3 b3]
  | .call f args, h, v, w, h1, h2 => by
    simp only [FExpr.NoWild] at h
    simp only [FExpr.EvalsTo] at h1 h2
    obtain ⟨x, a1, a3⟩ := h1
    obtain ⟨x', b1, b3⟩ := h2
    rw [allEvalTo_det args h x x' a1 b1, b3] at a3
    simpa using a3.symm
  | .new f args, h, v, w, h1, h2 => by
    simp only [FExpr.NoWild] at h
    simp only [FExpr.EvalsTo] at h1 h2
    obtain ⟨x, a1, rfl⟩ := h1
    obtain ⟨x', b1, rfl⟩ := h2
    rw [allEvalTo_det args h x x' a1 b1]
theorem allEvalTo_det {σ : Name → Val F} : ∀ (es : List (FExpr F)), FExpr.AllNoWild es → ∀ vs ws, FExpr.AllEvalTo X σ es vs →
    FExpr.AllEvalTo X σ es ws → vs = ws
  | [], _, vs, ws, h1, h2 => by simp only [FExpr.AllEvalTo] at h1 h2; rw [h1, h2]
  | e :: es, h, vs, ws, h1, h2 => by
    simp only [FExpr.AllEvalTo] at h1 h2
    obtain ⟨a, as, rfl, a1, a2⟩ := h1
    obtain ⟨b, bs, rfl, b1, b2⟩ := h2
    rw [evalsTo_det e h.1 a b a1 b1, allEvalTo_det es h.2 as bs a2 b2]
end

theorem plain_lits : ∀ (es : List (FExpr F)), PlainArgs es → FExpr.AllNamesIn Name.IsSource es → ∀ n, LitsIn NotWc (FExpr.flattenAll es n).2.1
  | [], _, _, n => .nil
  | e :: es, h, hn, n => by
    have ih := plain_lits es (fun e he => h e (by simp [he])) hn.2 (e.flatten n).2.2
    rcases h e (by simp) with rfl | he
    · exact ih
    · exact .append (flatten_noWild e he (exprNames_mono (fun x hx => IsSource.notWc hx) e hn.1) n).2 ih

theorem plain_reach {V : Name → Prop} {σ : Name → Val F} : ∀ (es : List (FExpr F)), PlainArgs es → FExpr.AllNamesIn Name.IsSource es → ∀ n vs,
    LitsHold X D G V σ (FExpr.flattenAll es n).2.1 → FExpr.AllEvalTo X σ es vs →
    ∃ τ : Name → Val F, (∀ x, (∀ i, n ≤ i → x ≠ .wc i) → τ x = σ x) ∧ (FExpr.flattenAll es n).1.map (Term.val τ) = vs
  | [], _, _, n, vs, _, h => by
    simp only [FExpr.AllEvalTo] at h
    exact ⟨σ, fun _ _ => rfl, h.symm⟩
  | e :: es, h, hn, n, vs, hl, hv => by
    simp only [FExpr.AllEvalTo] at hv
    obtain ⟨w, ws, rfl, h1, h2⟩ := hv
    simp only [FExpr.flattenAll, litsHold_append] at hl
    obtain ⟨τ, t1, t2⟩ := plain_reach es (fun e he => h e (by simp [he])) hn.2 (e.flatten n).2.2 ws hl.2 h2
    obtain ⟨s1, s2, s3⟩ := flattenAll_scope es hn.2 (e.flatten n).2.2
    obtain ⟨u1, _, _⟩ := flatten_scope e hn.1 n
    rcases h e (by simp) with rfl | he
    · refine ⟨upd τ (.wc n) w, fun x hx => ?_, ?_⟩
      · simp only [upd, if_neg (hx n (Nat.le_refl _))]
        exact t1 x (fun i hi => hx i (by omega))
      · simp only [FExpr.flattenAll, List.map_cons]
        rw [← TermIn.vals (σ := τ) (fun x hx => ?_) s2, t2]
        · simp [FExpr.flatten, Term.val, upd]
        · have : x ≠ .wc n := by
            rcases hx with hx | ⟨i, a, b, rfl | rfl⟩
            · rintro rfl; exact hx
            · simp
            · simp only [FExpr.flatten] at a
              intro k
              simp at k
              omega
          simp [upd, this]
    · refine ⟨τ, fun x hx => t1 x (fun i hi => hx i (by omega)), ?_⟩
      simp only [FExpr.flattenAll, List.map_cons, t2]
      have e1 := evalsTo_det e he w _ h1 (flatten_sound e n hl.1)
      have hw := (flatten_noWild e he (exprNames_mono (fun x hx => IsSource.notWc hx) e hn.1) n).1
      rw [hw.val (τ := σ) (fun x hx => t1 x (fun i _ => hx i)), ← e1]

theorem cop_toBin {op : BinOp} {c : COp} (h : cop? op = some c) : c.toBin = op := by
  cases op <;> simp [cop?] at h <;> subst h <;> rfl

/-- What the proofs need of wildcards: plain arguments in negated atoms, and in what will be negated. -/
def Formula.PlainNeg : Formula F → Prop
  | .neg _ args => PlainArgs args
  | .disj fs => allPlainNeg fs
  | .conj fs => allPlainNeg fs
  | .implies l r => l.Plain ∧ r.PlainNeg
  | _ => True
where
  /-- The same for a list. -/
  allPlainNeg : List (Formula F) → Prop
    | [] => True
    | f :: fs => f.PlainNeg ∧ allPlainNeg fs

theorem flattenLit_scope (f : Formula F) (hn : f.NamesIn Name.IsSource) (n : Nat) {ls : List (FLit F)} {m : Nat}
    (e : flattenLit f n = some (ls, m)) : n ≤ m ∧ LitsIn (FScope n m) ls := by
  cases f with
  | atom p args =>
    obtain ⟨a1, a2, a3⟩ := flattenAll_scope args hn n
    simp only [flattenLit, Option.some.injEq, Prod.mk.injEq] at e
    obtain ⟨rfl, rfl⟩ := e
    exact ⟨a1, .cons a2 a3⟩
  | neg p args =>
    obtain ⟨a1, a2, a3⟩ := flattenAll_scope args hn n
    simp only [flattenLit, Option.some.injEq, Prod.mk.injEq] at e
    obtain ⟨rfl, rfl⟩ := e
    exact ⟨a1, .cons a2 a3⟩
  | constraint c =>
    simp only [flattenLit] at e
    simp only [Formula.NamesIn] at hn
    unfold flattenConstraint at e
    split at e
    · rename_i _ _ op a b
      obtain ⟨a1, a2, a3⟩ := flatten_scope a hn.1 n
      obtain ⟨b1, b2, b3⟩ := flatten_scope b hn.2 (a.flatten n).2.2
      simp only [Option.map_eq_some_iff, Prod.mk.injEq] at e
      obtain ⟨c, _, rfl, rfl⟩ := e
      refine ⟨by omega, .cons ⟨a2.mono ?_, b2.mono ?_⟩ (.append (a3.mono ?_) (b3.mono ?_))⟩ <;>
      exact fun x hx => hx.mono (by omega) (by omega)
    · rename_i _ _ a
      simp only [FExpr.NamesIn] at hn
      obtain ⟨a1, a2, a3⟩ := flatten_scope a hn n
      simp only [Option.some.injEq, Prod.mk.injEq] at e
      obtain ⟨rfl, rfl⟩ := e
      exact ⟨a1, .cons a2 a3⟩
    · simp at e
  | reduce left op args bindings body gv gb =>
    simp only [flattenLit, Option.some.injEq, Prod.mk.injEq] at e
    obtain ⟨rfl, rfl⟩ := e
    exact ⟨Nat.le_refl _, .cons (names_mono (fun x hx => .inl hx) _ hn) .nil⟩
  | _ => simp [flattenLit] at e

theorem flattenLit_sound {V : Name → Prop} {σ : Name → Val F} (f : Formula F) (hn : f.NamesIn Name.IsSource) (hp : f.PlainNeg) (n : Nat)
    {ls : List (FLit F)} {m : Nat} (e : flattenLit f n = some (ls, m)) (h : LitsHold X D G V σ ls) : f.Holds X D G V σ := by
  cases f with
  | atom p args =>
    simp only [flattenLit, Option.some.injEq, Prod.mk.injEq] at e
    obtain ⟨rfl, rfl⟩ := e
    simp only [litsHold_cons, forall_const] at h
    simp only [Formula.Holds]
    exact ⟨_, flattenAll_sound args n h.2, h.1⟩
  | neg p args =>
    simp only [flattenLit, Option.some.injEq, Prod.mk.injEq] at e
    obtain ⟨rfl, rfl⟩ := e
    simp only [litsHold_cons, forall_const] at h
    simp only [Formula.Holds]
    refine ⟨⟨_, flattenAll_sound args n h.2⟩, ?_⟩
    rintro ⟨vs, h1, h2⟩
    obtain ⟨τ, t1, t2⟩ := plain_reach args hp hn n vs h.2 h1
    exact h.1 ⟨τ, fun x hx => t1 x (fun i _ => hx i), by rw [t2]; exact h2⟩
  | constraint c =>
    simp only [flattenLit] at e
    simp only [Formula.Holds]
    unfold flattenConstraint at e
    split at e
    · rename_i _ _ op a b
      simp only [Option.map_eq_some_iff, Prod.mk.injEq] at e
      obtain ⟨c, hc, rfl, rfl⟩ := e
      simp only [litsHold_cons, litsHold_append, forall_const] at h
      obtain ⟨h1, h2, h3⟩ := h
      simp only [LitHolds, cop_toBin hc] at h1
      simp only [FExpr.EvalsTo]
      exact ⟨_, _, flatten_sound a _ h2, flatten_sound b _ h3, h1⟩
    · rename_i _ _ a
      simp only [Option.some.injEq, Prod.mk.injEq] at e
      obtain ⟨rfl, rfl⟩ := e
      simp only [litsHold_cons, forall_const] at h
      simp only [FExpr.EvalsTo]
      exact ⟨_, flatten_sound a _ h.2, h.1⟩
    · simp at e
  | reduce left op args bindings body gv gb =>
    simp only [flattenLit, Option.some.injEq, Prod.mk.injEq] at e
    obtain ⟨rfl, rfl⟩ := e
    simp only [litsHold_cons, forall_const] at h
    exact h.1
  | _ => simp [flattenLit] at e

theorem flattenLit_complete {V : Name → Prop} (hV : ∀ x, V x → x.IsSource) {σ : Name → Val F} (f : Formula F) (hn : f.NamesIn Name.IsSource)
    (hp : f.PlainNeg) (n : Nat) {ls : List (FLit F)} {m : Nat} (e : flattenLit f n = some (ls, m)) (h : f.Holds X D G V σ) :
    ∃ τ, FDiff n m σ τ ∧ LitsHold X D G V τ ls := by
  cases f with
  | atom p args =>
    simp only [flattenLit, Option.some.injEq, Prod.mk.injEq] at e
    obtain ⟨rfl, rfl⟩ := e
    simp only [Formula.Holds] at h
    obtain ⟨vs, h1, h2⟩ := h
    obtain ⟨τ, t1, t2, t3⟩ := flattenAll_complete hV args hn n σ vs h1
    refine ⟨τ, t1, ?_⟩
    simp only [litsHold_cons, forall_const]
    exact ⟨by simpa only [LitHolds, t3] using h2, t2⟩
  | neg p args =>
    simp only [flattenLit, Option.some.injEq, Prod.mk.injEq] at e
    obtain ⟨rfl, rfl⟩ := e
    simp only [Formula.Holds] at h
    obtain ⟨⟨vs, h1⟩, h2⟩ := h
    obtain ⟨τ, t1, t2, t3⟩ := flattenAll_complete hV args hn n σ vs h1
    refine ⟨τ, t1, ?_⟩
    simp only [litsHold_cons, forall_const]
    refine ⟨?_, t2⟩
    rintro ⟨ρ, r1, r2⟩
    have hl : LitsHold X D G V ρ (FExpr.flattenAll args n).2.1 :=
      ((plain_lits args hp hn n).holds (fun x hx => (r1 x hx).symm) (fun x hx => IsSource.notWc (hV x hx))).1 t2
    refine h2 ⟨_, ?_, r2⟩
    refine (allEvalTo_congr (P := Name.IsSource) (fun x hx => ?_) args hn _).2 (flattenAll_sound args n hl)
    rw [r1 x (IsSource.notWc hx)]
    exact t1.source hx
  | constraint c =>
    simp only [flattenLit] at e
    simp only [Formula.NamesIn] at hn
    simp only [Formula.Holds] at h
    have hVs : ∀ {p q} z, V z → FScope p q z := fun z hz => .inl (hV z hz)
    unfold flattenConstraint at e
    split at e
    · rename_i _ _ op a b
      simp only [Option.map_eq_some_iff, Prod.mk.injEq] at e
      obtain ⟨c, hc, rfl, rfl⟩ := e
      simp only [FExpr.EvalsTo] at h
      obtain ⟨x, y, h1, h2, h3⟩ := h
      obtain ⟨a1, a2, a3⟩ := flatten_scope a hn.1 n
      obtain ⟨b1, b2, b3⟩ := flatten_scope b hn.2 (a.flatten n).2.2
      obtain ⟨τ, t1, t2, t3⟩ := flatten_complete hV a hn.1 n σ x h1
      obtain ⟨ρ, r1, r2, r3⟩ := flatten_complete hV b hn.2 (a.flatten n).2.2 τ y ((evalsTo_congr (fun z hz => t1.source hz) b hn.2 y).1 h2)
      have hr : ∀ z, FScope n (a.flatten n).2.2 z → τ z = ρ z := fun z hz => r1.scope hz
      refine ⟨ρ, t1.trans r1 a1 b1, ?_⟩
      simp only [litsHold_cons, litsHold_append, forall_const]
      refine ⟨?_, (a3.holds hr hVs).1 t2, r2⟩
      simpa only [LitHolds, cop_toBin hc, ← a2.val hr, t3, r3] using h3
    · rename_i _ _ a
      simp only [FExpr.NamesIn] at hn
      simp only [Option.some.injEq, Prod.mk.injEq] at e
      obtain ⟨rfl, rfl⟩ := e
      simp only [FExpr.EvalsTo] at h
      obtain ⟨x, h1, h3⟩ := h
      obtain ⟨τ, t1, t2, t3⟩ := flatten_complete hV a hn n σ x h1
      refine ⟨τ, t1, ?_⟩
      simp only [litsHold_cons, forall_const]
      exact ⟨by simpa only [LitHolds, t3] using h3, t2⟩
    · simp at e
  | reduce left op args bindings body gv gb =>
    simp only [flattenLit, Option.some.injEq, Prod.mk.injEq] at e
    obtain ⟨rfl, rfl⟩ := e
    refine ⟨σ, .refl, ?_⟩
    simp only [litsHold_cons, forall_const]
    exact ⟨h, litsHold_nil⟩
  | _ => simp [flattenLit] at e

theorem flattenLits_correct {V : Name → Prop} (hV : ∀ x, V x → x.IsSource) : ∀ (fs : List (Formula F)), (∀ f ∈ fs, f.NamesIn Name.IsSource) →
    (∀ f ∈ fs, f.PlainNeg) → ∀ n ls m, flattenLits fs n = some (ls, m) → n ≤ m ∧ LitsIn (FScope n m) ls ∧
    (∀ σ, LitsHold X D G V σ ls → ∀ f ∈ fs, f.Holds X D G V σ) ∧
    (∀ σ, (∀ f ∈ fs, f.Holds X D G V σ) → ∃ τ, FDiff n m σ τ ∧ LitsHold X D G V τ ls)
  | [], _, _, n, ls, m, e => by
    simp only [flattenLits, Option.some.injEq, Prod.mk.injEq] at e
    obtain ⟨rfl, rfl⟩ := e
    exact ⟨Nat.le_refl _, .nil, by simp, fun σ _ => ⟨σ, .refl, litsHold_nil⟩⟩
  | f :: fs, hn, hp, n, ls, m, e => by
    simp only [flattenLits, Option.bind_eq_some_iff, Option.map_eq_some_iff, Prod.mk.injEq] at e
    obtain ⟨⟨l1, m1⟩, e1, ⟨l2, m2⟩, e2, rfl, rfl⟩ := e
    obtain ⟨a1, a2⟩ := flattenLit_scope f (hn f (by simp)) n e1
    obtain ⟨b1, b2, b3, b4⟩ := flattenLits_correct hV fs (fun g hg => hn g (by simp [hg])) (fun g hg => hp g (by simp [hg])) m1 l2 m2 e2
    refine ⟨by dsimp only at *; omega, .append (a2.mono fun x hx => hx.mono (Nat.le_refl _) b1) (b2.mono fun x hx => hx.mono a1 (Nat.le_refl _)), ?_, ?_⟩
    · intro σ hl g hg
      rw [litsHold_append] at hl
      rcases List.mem_cons.1 hg with rfl | hg
      · exact flattenLit_sound _ (hn _ (by simp)) (hp _ (by simp)) n e1 hl.1
      · exact b3 σ hl.2 g hg
    · intro σ hh
      obtain ⟨τ, t1, t2⟩ := flattenLit_complete hV f (hn f (by simp)) (hp f (by simp)) n e1 (hh f (by simp))
      obtain ⟨ρ, r1, r2⟩ := b4 τ (fun g hg => (holds_congr (P := Name.IsSource) (fun x hx => t1.source hx) g (hn g (by simp [hg])) V hV).1 (hh g (by simp [hg])))
      refine ⟨ρ, t1.trans r1 a1 b1, ?_⟩
      rw [litsHold_append]
      exact ⟨(a2.holds (fun x hx => r1.scope hx) (fun x hx => .inl (hV x hx))).1 t2, r2⟩

theorem flattenLits_append : ∀ (xs ys : List (Formula F)) n l1 m l2 k, flattenLits xs n = some (l1, m) → flattenLits ys m = some (l2, k) →
    flattenLits (xs ++ ys) n = some (l1 ++ l2, k)
  | [], ys, n, l1, m, l2, k, e1, e2 => by
    simp only [flattenLits, Option.some.injEq, Prod.mk.injEq] at e1
    obtain ⟨rfl, rfl⟩ := e1
    exact e2
  | x :: xs, ys, n, l1, m, l2, k, e1, e2 => by
    simp only [flattenLits, Option.bind_eq_some_iff, Option.map_eq_some_iff, Prod.mk.injEq] at e1
    obtain ⟨⟨p, m1⟩, h1, ⟨q, m2⟩, h2, rfl, rfl⟩ := e1
    have := flattenLits_append xs ys m1 q m2 l2 k h2 e2
    simp [flattenLits, h1, this]

/-- The rules are the conjunctions, with their literals flattened. -/
theorem conjsToBack_rules {V : Name → Prop} (hV : ∀ x, V x → x.IsSource) (X : Ext F) (D : DB F) (G : Aggs F) (head : Atom Name F) (add : List (FLit F)) : ∀ (cs : List (ConjCtx F)),
    (∀ c ∈ cs, ∀ l ∈ c.pos ++ c.neg ++ c.agg, l.NamesIn Name.IsSource ∧ l.PlainNeg) → ∀ n rs, conjsToBack head add cs n = some rs →
    (∀ r ∈ rs, r.head = head ∧ ∃ c ∈ cs, ∃ k ls m, n ≤ k ∧ flattenLits (c.pos ++ c.neg ++ c.agg) k = some (ls, m) ∧ r.body = ls ++ add) ∧
    (∀ c ∈ cs, ∃ r ∈ rs, r.head = head ∧ ∃ k ls m, n ≤ k ∧ flattenLits (c.pos ++ c.neg ++ c.agg) k = some (ls, m) ∧ r.body = ls ++ add)
  | [], _, n, rs, e => by
    simp only [conjsToBack, Option.some.injEq] at e
    subst e
    simp
  | c :: cs, h, n, rs, e => by
    simp only [conjsToBack, Option.bind_eq_some_iff, Option.map_eq_some_iff] at e
    obtain ⟨⟨p, n1⟩, e1, ⟨q, n2⟩, e2, ⟨a, n3⟩, e3, rs', e4, rfl⟩ := e
    have hall : flattenLits (c.pos ++ c.neg ++ c.agg) n = some (p ++ q ++ a, n3) :=
      flattenLits_append _ _ _ _ _ _ _ (flattenLits_append _ _ _ _ _ _ _ e1 e2) e3
    have hc := h c (by simp)
    have hle := (flattenLits_correct (X := X) (D := D) (G := G) hV _ (fun f hf => (hc f hf).1) (fun f hf => (hc f hf).2) n _ _ hall).1
    obtain ⟨h1, h2⟩ := conjsToBack_rules hV X D G head add cs (fun c' hc' => h c' (by simp [hc'])) n3 rs' e4
    simp only [List.mem_cons, forall_eq_or_imp, exists_eq_or_imp]
    refine ⟨⟨⟨trivial, .inl ⟨n, _, _, Nat.le_refl _, hall, by simp⟩⟩, ?_⟩, ⟨.inl ⟨trivial, n, _, _, Nat.le_refl _, hall, by simp⟩, ?_⟩⟩
    · intro r hr
      obtain ⟨r1, c', hc', k, ls, m, hk, r2⟩ := h1 r hr
      exact ⟨r1, .inr ⟨c', hc', k, ls, m, by dsimp only at *; omega, r2⟩⟩
    · intro c' hc'
      obtain ⟨r, hr, r1, k, ls, m, hk, r2⟩ := h2 c' hc'
      exact .inr ⟨r, hr, r1, k, ls, m, by dsimp only at *; omega, r2⟩

theorem multiProduct_mem {α : Type} : ∀ (ls : List (List α)) (xs : List α), xs ∈ multiProduct ls → ∀ x ∈ xs, ∃ l ∈ ls, x ∈ l
  | [], xs, h, x, hx => by simp [multiProduct] at h
  | l :: ls, xs, h, x, hx => by
    rw [mem_multiProduct (by simp)] at h
    match xs, h with
    | y :: ys, h =>
      rcases List.mem_cons.1 hx with rfl | hx
      · exact ⟨l, by simp, h.1⟩
      · by_cases hls : ls = []
        · subst hls
          match ys, h.2 with
          | [], _ => simp at hx
        · obtain ⟨l', h1, h2⟩ := multiProduct_mem ls ys ((mem_multiProduct hls).2 h.2) x hx
          exact ⟨l', by simp [h1], h2⟩

theorem join_mem {l : Formula F} : ∀ (cs : List (ConjCtx F)) (a : ConjCtx F),
    (let c := cs.foldl (fun acc new => (⟨acc.pos ++ new.pos, acc.neg ++ new.neg, acc.agg ++ new.agg⟩ : ConjCtx F)) a
     l ∈ c.pos ++ c.neg ++ c.agg) → l ∈ a.pos ++ a.neg ++ a.agg ∨ ∃ c ∈ cs, l ∈ c.pos ++ c.neg ++ c.agg
  | [], a, h => .inl h
  | c :: cs, a, h => by
    rw [List.foldl_cons] at h
    rcases join_mem cs _ h with h | ⟨c', h1, h2⟩
    · simp only [List.mem_append] at h ⊢
      simp only [List.mem_cons, exists_eq_or_imp]
      rcases h with ((h | h) | (h | h)) | (h | h) <;> simp [h]
    · exact .inr ⟨c', by simp [h1], h2⟩

mutual
/-- The literals of the conjunctions are parts of the formula. -/
theorem fromFormula_mem {Q : Formula F → Prop} (hd : ∀ fs, Q (.disj fs) → ∀ f ∈ fs, Q f) (hc : ∀ fs, Q (.conj fs) → ∀ f ∈ fs, Q f) :
    ∀ (f : Formula F), Q f → ∀ cs, fromFormula f = some cs → ∀ c ∈ cs, ∀ l ∈ c.pos ++ c.neg ++ c.agg, Q l
  | .disj fs, hq, cs, e, c, hm, l, hl => by
    simp only [fromFormula, Option.map_eq_some_iff] at e
    obtain ⟨css, e1, rfl⟩ := e
    obtain ⟨cs', h1, h2⟩ := List.mem_flatten.1 hm
    exact fromAll_mem hd hc fs (hd fs hq) css e1 cs' h1 c h2 l hl
  | .conj fs, hq, cs, e, c, hm, l, hl => by
    simp only [fromFormula, Option.map_eq_some_iff] at e
    obtain ⟨css, e1, rfl⟩ := e
    obtain ⟨xs, h1, rfl⟩ := List.mem_map.1 hm
    rcases join_mem xs _ hl with h | ⟨c', h2, h3⟩
    · simp at h
    · obtain ⟨cs', h4, h5⟩ := multiProduct_mem css xs h1 c' h2
      exact fromAll_mem hd hc fs (hc fs hq) css e1 cs' h4 c' h5 l h3
  | .atom p args, hq, cs, e, c, hm, l, hl => by
    simp only [fromFormula, Option.some.injEq] at e
    subst e
    simp at hm
    subst hm
    simp at hl
    exact hl ▸ hq
  | .neg p args, hq, cs, e, c, hm, l, hl => by
    simp only [fromFormula, Option.some.injEq] at e
    subst e
    simp at hm
    subst hm
    simp at hl
    exact hl ▸ hq
  | .constraint k, hq, cs, e, c, hm, l, hl => by
    simp only [fromFormula, Option.some.injEq] at e
    subst e
    simp at hm
    subst hm
    simp at hl
    exact hl ▸ hq
  | .reduce .., hq, cs, e, c, hm, l, hl => by
    simp only [fromFormula, Option.some.injEq] at e
    subst e
    simp at hm
    subst hm
    simp at hl
    exact hl ▸ hq
  | .implies _ _, _, cs, e, _, _, _, _ => by simp [fromFormula] at e
  | .case _ _, _, cs, e, _, _, _, _ => by simp [fromFormula] at e
  | .quant .., _, cs, e, _, _, _, _ => by simp [fromFormula] at e
  | .range .., _, cs, e, _, _, _, _ => by simp [fromFormula] at e
theorem fromAll_mem {Q : Formula F → Prop} (hd : ∀ fs, Q (.disj fs) → ∀ f ∈ fs, Q f) (hc : ∀ fs, Q (.conj fs) → ∀ f ∈ fs, Q f) :
    ∀ (fs : List (Formula F)), (∀ f ∈ fs, Q f) → ∀ css, fromFormula.fromAll fs = some css → ∀ cs ∈ css, ∀ c ∈ cs, ∀ l ∈ c.pos ++ c.neg ++ c.agg, Q l
  | [], _, css, e, cs, hm, _, _, _, _ => by
    simp only [fromFormula.fromAll, Option.some.injEq] at e
    subst e
    simp at hm
  | f :: fs, hq, css, e, cs, hm, c, hc', l, hl => by
    simp only [fromFormula.fromAll, Option.bind_eq_some_iff, Option.map_eq_some_iff] at e
    obtain ⟨cs', e1, css', e2, rfl⟩ := e
    rcases List.mem_cons.1 hm with rfl | hm
    · exact fromFormula_mem hd hc f (hq f (by simp)) _ e1 c hc' l hl
    · exact fromAll_mem hd hc fs (fun g hg => hq g (by simp [hg])) css' e2 cs hm c hc' l hl
end

theorem allPlainNeg_iff : ∀ fs : List (Formula F), Formula.PlainNeg.allPlainNeg fs ↔ ∀ f ∈ fs, f.PlainNeg
  | [] => by simp [Formula.PlainNeg.allPlainNeg]
  | f :: fs => by simp [Formula.PlainNeg.allPlainNeg, allPlainNeg_iff fs]

theorem allPlain_iff : ∀ fs : List (Formula F), Formula.Plain.allPlain fs ↔ ∀ f ∈ fs, f.Plain
  | [] => by simp [Formula.Plain.allPlain]
  | f :: fs => by simp [Formula.Plain.allPlain, allPlain_iff fs]

theorem allNonEmpty_iff : ∀ fs : List (Formula F), Formula.NonEmpty.allNonEmpty fs ↔ ∀ f ∈ fs, f.NonEmpty
  | [] => by simp [Formula.NonEmpty.allNonEmpty]
  | f :: fs => by simp [Formula.NonEmpty.allNonEmpty, allNonEmpty_iff fs]

/-- The rules made from a rule whose body is in the core language derive the same facts. -/
theorem ruleToBack_derives {V : Name → Prop} (hV : ∀ x, V x → x.IsSource) (p : String) (args : List (FExpr F)) (body : Formula F)
    (ha : FExpr.AllNamesIn Name.IsSource args) (hb : body.NamesIn Name.IsSource) (hne : body.NonEmpty) (hp : body.PlainNeg) {rs : List (FBack F)}
    (e : ruleToBack p args body = some rs) (vs : List (Val F)) : BackDerives X D G V rs p vs ↔ Derives X D G V args body vs := by
  simp only [ruleToBack, Option.bind_eq_some_iff] at e
  obtain ⟨cs, e1, e2⟩ := e
  have hq : ∀ c ∈ cs, ∀ l ∈ c.pos ++ c.neg ++ c.agg, l.NamesIn Name.IsSource ∧ l.PlainNeg :=
    fromFormula_mem (Q := fun l => l.NamesIn Name.IsSource ∧ l.PlainNeg)
      (fun fs h f hf => ⟨(allNamesIn_iff fs).1 h.1 f hf, (allPlainNeg_iff fs).1 h.2 f hf⟩)
      (fun fs h f hf => ⟨(allNamesIn_iff fs).1 h.1 f hf, (allPlainNeg_iff fs).1 h.2 f hf⟩) body ⟨hb, hp⟩ cs e1
  obtain ⟨h1, h2⟩ := conjsToBack_rules hV X D G _ _ cs hq _ rs e2
  obtain ⟨s1, s2, s3⟩ := flattenAll_scope args ha 0
  constructor
  · rintro ⟨r, hr, σ, hl, hpred, rfl⟩
    obtain ⟨hh, c, hc, k, ls, m, hk, e3, hbody⟩ := h1 r hr
    have hcor := flattenLits_correct (X := X) (D := D) (G := G) hV _ (fun f hf => (hq c hc f hf).1) (fun f hf => (hq c hc f hf).2) k ls m e3
    have hl' : LitsHold X D G V σ (ls ++ (FExpr.flattenAll args 0).2.1) := by rw [← hbody]; exact hl
    rw [litsHold_append] at hl'
    refine ⟨σ, (fromFormula_holds body hne cs e1).2 ⟨c, hc, hcor.2.2.1 σ hl'.1⟩, ?_⟩
    rw [hh]
    exact flattenAll_sound args 0 hl'.2
  · rintro ⟨σ, hσ, hv⟩
    obtain ⟨c, hc, hcc⟩ := (fromFormula_holds body hne cs e1).1 hσ
    obtain ⟨r, hr, hh, k, ls, m, hk, e3, hbody⟩ := h2 c hc
    have hcor := flattenLits_correct (X := X) (D := D) (G := G) hV _ (fun f hf => (hq c hc f hf).1) (fun f hf => (hq c hc f hf).2) k ls m e3
    obtain ⟨τ, t1, t2, t3⟩ := flattenAll_complete (D := D) (G := G) hV args ha 0 σ vs hv
    obtain ⟨ρ, r1, r2⟩ := hcor.2.2.2 τ (fun f hf => (holds_congr (P := Name.IsSource) (fun x hx => t1.source hx) f (hq c hc f hf).1 V hV).1 (hcc f hf))
    have hsc : ∀ x, FScope 0 (FExpr.flattenAll args 0).2.2 x → τ x = ρ x := by
      intro x hx
      exact r1.scope (hx.mono (Nat.le_refl _) hk)
    refine ⟨r, hr, ρ, ?_, by rw [hh], ?_⟩
    · have : LitsHold X D G V ρ (ls ++ (FExpr.flattenAll args 0).2.1) := by
        rw [litsHold_append]
        exact ⟨r2, (s3.holds hsc (fun x hx => .inl (hV x hx))).1 t2⟩
      rw [hbody]
      exact this
    · rw [hh, ← t3]
      exact (TermIn.vals hsc s2).symm

end Scallop.Front
