import Verif.Proof.Front

/-! Lemmas about the totality of desugaring, nested patterns and normalisation of bodies. -/

namespace Scallop.Front

variable {F : Type} {X : Ext F} {D : DB F} {G : Aggs F}

/-! ## Enough fuel -/

theorem weight_pos (f : Formula F) : 1 ≤ f.weight := by
  cases f <;> simp only [Formula.weight] <;> omega

theorem weight_mem {f : Formula F} : ∀ {fs : List (Formula F)}, f ∈ fs → f.weight ≤ Formula.weight.weightAll fs
  | [], h => by simp at h
  | g :: gs, h => by
    simp only [Formula.weight.weightAll]
    rcases List.mem_cons.1 h with rfl | h
    · omega
    · have := weight_mem h
      omega

theorem walkList_undef {w : Formula F → Outcome (Formula F)} : ∀ fs : List (Formula F), (∀ f ∈ fs, w f ≠ .undef) → walkList w fs ≠ .undef
  | [], _ => by simp [walkList]
  | f :: fs, h => by
    have h1 := h f (by simp)
    have h2 := walkList_undef fs (fun f hf => h f (by simp [hf]))
    simp only [walkList]
    cases e1 : w f with
    | undef => exact absurd e1 h1
    | panic => simp [Outcome.bind]
    | ok a =>
      cases e2 : walkList w fs with
      | undef => exact absurd e2 h2
      | panic => simp [Outcome.bind]
      | ok b => simp [Outcome.bind]

theorem walkChildren_undef {w : Formula F → Outcome (Formula F)} {n : Nat} (hw : ∀ f : Formula F, f.weight ≤ n → w f ≠ .undef)
    (f : Formula F) (hf : f.weight ≤ n + 1) : walkChildren w f ≠ .undef := by
  cases f with
  | disj fs =>
    simp only [Formula.weight] at hf
    have h := walkList_undef (w := w) fs (fun f hm => hw f (by have := weight_mem hm; omega))
    simp only [walkChildren]
    cases e2 : walkList w fs with
    | undef => exact absurd e2 h
    | panic => simp [Outcome.bind]
    | ok b => simp [Outcome.bind]
  | conj fs =>
    simp only [Formula.weight] at hf
    have h := walkList_undef (w := w) fs (fun f hm => hw f (by have := weight_mem hm; omega))
    simp only [walkChildren]
    cases e2 : walkList w fs with
    | undef => exact absurd e2 h
    | panic => simp [Outcome.bind]
    | ok b => simp [Outcome.bind]
  | implies l r =>
    simp only [Formula.weight] at hf
    have h1 := hw l (by omega)
    have h2 := hw r (by omega)
    simp only [walkChildren]
    cases e1 : w l with
    | undef => exact absurd e1 h1
    | panic => simp [Outcome.bind]
    | ok a =>
      cases e2 : w r with
      | undef => exact absurd e2 h2
      | panic => simp [Outcome.bind]
      | ok b => simp [Outcome.bind]
  | reduce l op as bs body gv gb =>
    simp only [Formula.weight] at hf
    have h1 := hw body (by omega)
    have h2 := walkList_undef (w := w) gb (fun f hm => hw f (by have := weight_mem hm; omega))
    simp only [walkChildren]
    cases e1 : w body with
    | undef => exact absurd e1 h1
    | panic => simp [Outcome.bind]
    | ok a =>
      cases e2 : walkList w gb with
      | undef => exact absurd e2 h2
      | panic => simp [Outcome.bind]
      | ok b => simp [Outcome.bind]
  | quant n' neg op bs body gv gb =>
    simp only [Formula.weight] at hf
    have h1 := hw body (by omega)
    have h2 := walkList_undef (w := w) gb (fun f hm => hw f (by have := weight_mem hm; omega))
    simp only [walkChildren]
    cases e1 : w body with
    | undef => exact absurd e1 h1
    | panic => simp [Outcome.bind]
    | ok a =>
      cases e2 : walkList w gb with
      | undef => exact absurd e2 h2
      | panic => simp [Outcome.bind]
      | ok b => simp [Outcome.bind]
  | _ => simp [walkChildren]

/-- A formula made of atoms, as patterns become. -/
def IsAtomConj (f : Formula F) : Prop := ∃ fs, f = .conj fs ∧ ∀ g ∈ fs, ∃ p as, g = .atom p as

mutual
theorem arg_atoms (v : Name) : ∀ (e : Entity F) (n : Nat), ∀ g ∈ (e.arg v n).2.1, ∃ p as, g = Formula.atom p as
  | .expr e, n => by simp [Entity.arg]
  | .object f as, n => by
    simp only [Entity.arg, List.mem_append, List.mem_singleton]
    rintro g (h | rfl)
    · exact args_atoms v as _ g h
    · exact ⟨_, _, rfl⟩
theorem args_atoms (v : Name) : ∀ (es : List (Entity F)) (n : Nat), ∀ g ∈ (Entity.args v es n).2.1, ∃ p as, g = Formula.atom p as
  | [], n => by simp [Entity.args]
  | e :: es, n => by
    simp only [Entity.args, List.mem_append]
    rintro g (h | h)
    · exact arg_atoms v e _ g h
    · exact args_atoms v es _ g h
end

theorem walk_atoms {fuel : Nat} {f : Formula F} (h : ∃ p as, f = .atom p as) : walk (fuel + 1) f = .ok f := by
  obtain ⟨p, as, rfl⟩ := h
  simp [walk, visit, desugarCaseIs, desugarForallExists, desugarRange, transformForall, transformImplies, walkChildren]

theorem walkList_atoms {fuel : Nat} : ∀ {fs : List (Formula F)}, (∀ g ∈ fs, ∃ p as, g = .atom p as) → walkList (walk (fuel + 1)) fs = .ok fs
  | [], _ => rfl
  | f :: fs, h => by
    simp [walkList, walk_atoms (h f (by simp)), walkList_atoms (fs := fs) (fun g hg => h g (by simp [hg])), Outcome.bind]

/-- What the visit can leave, with enough fuel for its children. -/
theorem visit_weight (f f' : Formula F) (e : visit f = some f') (hc : ∀ v en, f ≠ .case v en) :
    f'.weight ≤ f.weight ∨ (∃ c g, f' = .conj [.constraint c, g] ∧ g.weight ≤ f.weight - 1 + 1 ∧ ∃ t as bs b gv gb,
      g = .reduce t "exists" as bs b gv gb ∧ b.weight + Formula.weight.weightAll gb + 2 ≤ f.weight) := by
  cases f with
  | case v en => exact absurd rfl (hc v en)
  | quant n negated op bindings body gv gb =>
    simp only [visit, desugarCaseIs, desugarForallExists, desugarRange, transformForall, Option.bind_some, transformImplies,
      Option.some.injEq] at e
    subst e
    simp only [Formula.weight, Formula.weight.weightAll]
    omega
  | range x lo hi inc =>
    cases inc <;> simp [visit, desugarCaseIs, desugarForallExists, desugarRange, transformForall, Option.bind_some, transformImplies] at e <;>
      subst e <;> simp [Formula.weight]
  | implies l r =>
    simp only [visit, desugarCaseIs, desugarForallExists, desugarRange, transformForall, Option.bind_some, transformImplies,
      Option.map_eq_some_iff] at e
    obtain ⟨l', e1, rfl⟩ := e
    simp [Formula.weight, Formula.weight.weightAll, negate_weight l l' e1]
  | reduce left op args bindings body gv gb =>
    simp only [visit, desugarCaseIs, desugarForallExists, desugarRange] at e
    unfold transformForall at e
    split at e
    · rename_i b args bindings l r gv gb heq
      simp only [Formula.reduce.injEq] at heq
      obtain ⟨rfl, rfl, rfl, rfl, rfl, rfl, rfl⟩ := heq
      simp only [Option.bind_eq_some_iff, Option.map_eq_some_iff] at e
      obtain ⟨_, ⟨r', e1, rfl⟩, e2⟩ := e
      simp only [transformImplies, Option.some.injEq] at e2
      subst e2
      refine .inr ⟨_, _, rfl, ?_, _, _, _, _, _, _, rfl, ?_⟩ <;>
      · simp only [Formula.weight, Formula.weight.weightAll, negate_weight r r' e1]
        omega
    · simp only [Option.bind_some, transformImplies, Option.some.injEq] at e
      subst e
      exact .inl (Nat.le_refl _)
  | _ =>
    simp only [visit, desugarCaseIs, desugarForallExists, desugarRange, transformForall, Option.bind_some, transformImplies,
      Option.some.injEq] at e
    subst e
    exact .inl (Nat.le_refl _)

theorem visit_case (v : Name) (en : Entity F) : (∃ c, visit (.case v en) = some (.constraint c)) ∨
    (∃ fs, visit (.case v en) = some (.conj fs) ∧ ∀ g ∈ fs, ∃ p as, g = Formula.atom p as) := by
  cases en with
  | expr e => exact .inl ⟨_, rfl⟩
  | object f as =>
    refine .inr ⟨_, rfl, ?_⟩
    simp only [List.mem_append, List.mem_singleton]
    rintro g (h | rfl)
    · exact args_atoms v as _ g h
    · exact ⟨_, _, rfl⟩

theorem walk_succ (n : Nat) (f : Formula F) : walk (n + 1) f =
    match visit f with
    | none => .panic
    | some f' => walkChildren (walk n) f' := rfl

theorem walk_undef : ∀ (n : Nat) (f : Formula F), f.weight + 1 ≤ n → walk n f ≠ .undef
  | 0, f, h => by omega
  | 1, f, h => by have := weight_pos f; omega
  | n + 2, f, h => by
    rw [walk_succ]
    split
    · simp
    · rename_i f1 e1
      by_cases hc : ∃ v en, f = .case v en
      · obtain ⟨v, en, rfl⟩ := hc
        rcases visit_case v en with ⟨c, h1⟩ | ⟨fs, h1, h2⟩
        · rw [h1, Option.some.injEq] at e1
          subst e1
          simp [walkChildren]
        · rw [h1, Option.some.injEq] at e1
          subst e1
          simp [walkChildren, walkList_atoms h2, Outcome.bind]
      · push Not at hc
        rcases visit_weight f f1 e1 hc with h1 | ⟨c, g, rfl, h1, t, as, bs, b, gv, gb, rfl, h2⟩
        · exact walkChildren_undef (n := n) (fun g hg => walk_undef (n + 1) g (by omega)) f1 (by omega)
        · have h3 : walk n b ≠ .undef := walk_undef n b (by omega)
          have h4 : walkList (walk n) gb ≠ .undef := walkList_undef gb (fun g hg => walk_undef n g (by have := weight_mem hg; omega))
          simp only [walkChildren, walkList]
          have hcst : walk (n + 1) (.constraint c : Formula F) = .ok (.constraint c) := by
            simp [walk, visit, desugarCaseIs, desugarForallExists, desugarRange, transformForall, transformImplies, walkChildren]
          have hred : walk (n + 1) (.reduce t "exists" as bs b gv gb : Formula F) =
              (walk n b).bind (fun b => (walkList (walk n) gb).bind (fun g => .ok (.reduce t "exists" as bs b gv g))) := by
            simp [walk, visit, desugarCaseIs, desugarForallExists, desugarRange, transformForall, transformImplies, walkChildren]
          rw [hcst, hred]
          cases e3 : walk n b with
          | undef => exact absurd e3 h3
          | panic => simp [Outcome.bind]
          | ok b1 =>
            cases e4 : walkList (walk n) gb with
            | undef => exact absurd e4 h4
            | panic => simp [Outcome.bind]
            | ok b2 => simp [Outcome.bind]

/-! ## Normalisation -/

theorem visit_kind (f f' : Formula F) (e : visit f = some f') :
    (∀ l r, f' ≠ .implies l r) ∧ (∀ v en, f' ≠ .case v en) ∧ (∀ n a b c d e h, f' ≠ .quant n a b c d e h) ∧
      (∀ x lo hi i, f' ≠ .range x lo hi i) := by
  cases f with
  | case v en =>
    rcases visit_case v en with ⟨c, h1⟩ | ⟨fs, h1, h2⟩ <;>
    · rw [h1, Option.some.injEq] at e
      subst e
      simp
  | range x lo hi inc =>
    cases inc <;> simp [visit, desugarCaseIs, desugarForallExists, desugarRange, transformForall, transformImplies] at e <;>
      subst e <;> simp
  | implies l r =>
    simp only [visit, desugarCaseIs, desugarForallExists, desugarRange, transformForall, Option.bind_some, transformImplies,
      Option.map_eq_some_iff] at e
    obtain ⟨l', e1, rfl⟩ := e
    simp
  | reduce left op args bindings body gv gb =>
    simp only [visit, desugarCaseIs, desugarForallExists, desugarRange] at e
    unfold transformForall at e
    split at e
    · simp only [Option.bind_eq_some_iff, Option.map_eq_some_iff] at e
      obtain ⟨_, ⟨r', e1, rfl⟩, e2⟩ := e
      simp only [transformImplies, Option.some.injEq] at e2
      subst e2
      simp
    · simp only [Option.bind_some, transformImplies, Option.some.injEq] at e
      subst e
      simp
  | _ =>
    simp only [visit, desugarCaseIs, desugarForallExists, desugarRange, transformForall, Option.bind_some, transformImplies,
      Option.some.injEq] at e
    subst e
    simp

theorem fromAll_walkList {w : Formula F → Outcome (Formula F)} (hw : ∀ f f', w f = .ok f' → ∃ cs, fromFormula f' = some cs) :
    ∀ fs fs' : List (Formula F), walkList w fs = .ok fs' → ∃ cs, fromFormula.fromAll fs' = some cs
  | [], fs', e => by
    simp only [walkList, Outcome.ok.injEq] at e
    subst e
    exact ⟨_, rfl⟩
  | f :: fs, fs', e => by
    simp only [walkList] at e
    obtain ⟨f', e1, e⟩ := bind_ok e
    obtain ⟨fs1, e2, e⟩ := bind_ok e
    simp only [Outcome.ok.injEq] at e
    subst e
    obtain ⟨cs, h1⟩ := hw f f' e1
    obtain ⟨cs', h2⟩ := fromAll_walkList hw fs fs1 e2
    exact ⟨cs :: cs', by simp [fromFormula.fromAll, h1, h2]⟩

/-- What desugaring leaves can be normalised. -/
theorem walk_fromFormula : ∀ (n : Nat) (f f' : Formula F), walk n f = .ok f' → ∃ cs, fromFormula f' = some cs
  | 0, f, f', e => by simp [walk] at e
  | n + 1, f, f', e => by
    rw [walk_succ] at e
    split at e
    · simp at e
    · rename_i f1 e1
      obtain ⟨k1, k2, k3, k4⟩ := visit_kind f f1 e1
      cases f1 with
      | disj fs =>
        simp only [walkChildren] at e
        obtain ⟨fs1, e2, e⟩ := bind_ok e
        simp only [Outcome.ok.injEq] at e
        subst e
        obtain ⟨cs, h⟩ := fromAll_walkList (walk_fromFormula n) fs fs1 e2
        exact ⟨_, by simp [fromFormula, h]; rfl⟩
      | conj fs =>
        simp only [walkChildren] at e
        obtain ⟨fs1, e2, e⟩ := bind_ok e
        simp only [Outcome.ok.injEq] at e
        subst e
        obtain ⟨cs, h⟩ := fromAll_walkList (walk_fromFormula n) fs fs1 e2
        exact ⟨_, by simp [fromFormula, h]; rfl⟩
      | implies l r => exact absurd rfl (k1 l r)
      | case v en => exact absurd rfl (k2 v en)
      | quant n a b c d e h => exact absurd rfl (k3 _ _ _ _ _ _ _)
      | range x lo hi i => exact absurd rfl (k4 _ _ _ _)
      | reduce left op args bindings body gv gb =>
        simp only [walkChildren] at e
        obtain ⟨b1, e1, e⟩ := bind_ok e
        obtain ⟨g1, e2, e⟩ := bind_ok e
        simp only [Outcome.ok.injEq] at e
        subst e
        exact ⟨_, rfl⟩
      | atom p as =>
        simp only [walkChildren, Outcome.ok.injEq] at e
        subst e
        exact ⟨_, rfl⟩
      | neg p as =>
        simp only [walkChildren, Outcome.ok.injEq] at e
        subst e
        exact ⟨_, rfl⟩
      | constraint c =>
        simp only [walkChildren, Outcome.ok.injEq] at e
        subst e
        exact ⟨_, rfl⟩

theorem mem_multiProduct {α : Type} {xs : List α} : ∀ {ls : List (List α)}, ls ≠ [] → (xs ∈ multiProduct ls ↔ All₂ (· ∈ ·) xs ls)
  | [], h => absurd rfl h
  | [l], _ => by
    simp only [multiProduct, List.mem_map]
    constructor
    · rintro ⟨x, hx, rfl⟩
      exact ⟨hx, trivial⟩
    · intro h
      match xs, h with
      | [x], h => exact ⟨x, h.1, rfl⟩
      | _ :: _ :: _, h => exact h.2.elim
  | l :: m :: ls, _ => by
    simp only [multiProduct, List.mem_flatMap, List.mem_map]
    constructor
    · rintro ⟨x, hx, ys, hy, rfl⟩
      exact ⟨hx, (mem_multiProduct (by simp)).1 hy⟩
    · intro h
      match xs, h with
      | x :: ys, h => exact ⟨x, h.1, ys, (mem_multiProduct (by simp)).2 h.2, rfl⟩

theorem join_holds_aux {V : Name → Prop} {σ : Name → Val F} : ∀ (cs : List (ConjCtx F)) (a : ConjCtx F),
    (cs.foldl (fun acc new => (⟨acc.pos ++ new.pos, acc.neg ++ new.neg, acc.agg ++ new.agg⟩ : ConjCtx F)) a).Holds X D G V σ ↔
      a.Holds X D G V σ ∧ ∀ c ∈ cs, c.Holds X D G V σ
  | [], a => by simp
  | c :: cs, a => by
    rw [List.foldl_cons, join_holds_aux cs]
    have h : (⟨a.pos ++ c.pos, a.neg ++ c.neg, a.agg ++ c.agg⟩ : ConjCtx F).Holds X D G V σ ↔ a.Holds X D G V σ ∧ c.Holds X D G V σ := by
      simp only [ConjCtx.Holds, List.mem_append, or_imp, forall_and]
      constructor
      · rintro ⟨⟨⟨a1, a2⟩, a3, a4⟩, a5, a6⟩
        exact ⟨⟨⟨a1, a3⟩, a5⟩, ⟨a2, a4⟩, a6⟩
      · rintro ⟨⟨⟨a1, a3⟩, a5⟩, ⟨a2, a4⟩, a6⟩
        exact ⟨⟨⟨a1, a2⟩, a3, a4⟩, a5, a6⟩
    rw [h]
    simp only [List.mem_cons, forall_eq_or_imp, and_assoc]

theorem join_holds {V : Name → Prop} {σ : Name → Val F} (cs : List (ConjCtx F)) :
    (ConjCtx.join cs).Holds X D G V σ ↔ ∀ c ∈ cs, c.Holds X D G V σ := by
  unfold ConjCtx.join
  rw [join_holds_aux]
  simp [ConjCtx.Holds]

theorem fromAll_nil {fs : List (Formula F)} {cs} (e : fromFormula.fromAll fs = some cs) : cs = [] ↔ fs = [] := by
  cases fs with
  | nil =>
    simp only [fromFormula.fromAll, Option.some.injEq] at e
    subst e
    simp
  | cons f fs =>
    simp only [fromFormula.fromAll, Option.bind_eq_some_iff, Option.map_eq_some_iff] at e
    obtain ⟨_, _, _, _, rfl⟩ := e
    simp

mutual
theorem fromFormula_holds {V : Name → Prop} {σ : Name → Val F} : ∀ (f : Formula F), f.NonEmpty → ∀ cs, fromFormula f = some cs →
    (f.Holds X D G V σ ↔ ∃ c ∈ cs, c.Holds X D G V σ)
  | .disj fs, hn, cs, e => by
    simp only [fromFormula, Option.map_eq_some_iff] at e
    obtain ⟨css, e1, rfl⟩ := e
    rw [show (Formula.disj fs).Holds X D G V σ = Formula.Holds.anyHolds X D G V σ fs from by simp only [Formula.Holds],
      (fromAll_holds fs hn.2 css e1).1]
    simp only [List.mem_flatten]
    constructor
    · rintro ⟨cs, h1, c, h2, h3⟩
      exact ⟨c, ⟨cs, h1, h2⟩, h3⟩
    · rintro ⟨c, ⟨cs, h1, h2⟩, h3⟩
      exact ⟨cs, h1, c, h2, h3⟩
  | .conj fs, hn, cs, e => by
    simp only [fromFormula, Option.map_eq_some_iff] at e
    obtain ⟨css, e1, rfl⟩ := e
    rw [show (Formula.conj fs).Holds X D G V σ = Formula.Holds.allHold X D G V σ fs from by simp only [Formula.Holds],
      (fromAll_holds fs hn.2 css e1).2]
    have hne : css ≠ [] := fun k => hn.1 ((fromAll_nil e1).1 k)
    simp only [List.mem_map, exists_exists_and_eq_and, join_holds, mem_multiProduct hne]
  | .atom p args, _, cs, e => by
    simp only [fromFormula, Option.some.injEq] at e
    subst e
    simp [ConjCtx.Holds]
  | .neg p args, _, cs, e => by
    simp only [fromFormula, Option.some.injEq] at e
    subst e
    simp [ConjCtx.Holds]
  | .constraint c, _, cs, e => by
    simp only [fromFormula, Option.some.injEq] at e
    subst e
    simp [ConjCtx.Holds]
  | .reduce .., _, cs, e => by
    simp only [fromFormula, Option.some.injEq] at e
    subst e
    simp only [ConjCtx.Holds, List.nil_append, List.mem_singleton, forall_eq, exists_eq_left]
  | .implies _ _, _, cs, e => by simp [fromFormula] at e
  | .case _ _, _, cs, e => by simp [fromFormula] at e
  | .quant .., _, cs, e => by simp [fromFormula] at e
  | .range .., _, cs, e => by simp [fromFormula] at e
theorem fromAll_holds {V : Name → Prop} {σ : Name → Val F} : ∀ (fs : List (Formula F)), Formula.NonEmpty.allNonEmpty fs →
    ∀ css, fromFormula.fromAll fs = some css →
    (Formula.Holds.anyHolds X D G V σ fs ↔ ∃ cs ∈ css, ∃ c ∈ cs, c.Holds X D G V σ) ∧
    (Formula.Holds.allHold X D G V σ fs ↔ ∃ xs, All₂ (· ∈ ·) xs css ∧ ∀ c ∈ xs, ConjCtx.Holds X D G V σ c)
  | [], _, css, e => by
    simp only [fromFormula.fromAll, Option.some.injEq] at e
    subst e
    refine ⟨by simp [Formula.Holds.anyHolds], ?_⟩
    simp only [Formula.Holds.allHold, true_iff]
    exact ⟨[], trivial, by simp⟩
  | f :: fs, hn, css, e => by
    simp only [fromFormula.fromAll, Option.bind_eq_some_iff, Option.map_eq_some_iff] at e
    obtain ⟨cs, e1, css', e2, rfl⟩ := e
    have h1 := fromFormula_holds (V := V) (σ := σ) f hn.1 cs e1
    have h2 := fromAll_holds (V := V) (σ := σ) fs hn.2 css' e2
    refine ⟨?_, ?_⟩
    · simp only [Formula.Holds.anyHolds, h1, h2.1, List.mem_cons, exists_eq_or_imp]
    · simp only [Formula.Holds.allHold, h1, h2.2]
      constructor
      · rintro ⟨⟨c, hc, hh⟩, xs, hx, hxx⟩
        exact ⟨c :: xs, ⟨hc, hx⟩, by simpa using ⟨hh, hxx⟩⟩
      · rintro ⟨xs, hx, hxx⟩
        match xs, hx with
        | c :: ys, hx => exact ⟨⟨c, hx.1, hxx c (by simp)⟩, ys, hx.2, fun d hd => hxx d (by simp [hd])⟩
end

/-! ## Nested patterns -/

/-- The variables made for the objects numbered from `n` to `m` inside a pattern on `v`, and all variables not made for it. -/
def AdtScope (v : Name) (n m : Nat) (x : Name) : Prop := (∀ i, x ≠ .adtVar v i) ∨ ∃ i, n ≤ i ∧ i < m ∧ x = .adtVar v i

theorem AdtScope.mono {v : Name} {n m n' m' : Nat} {x : Name} (h : AdtScope v n m x) (h1 : n' ≤ n) (h2 : m ≤ m') : AdtScope v n' m' x := by
  rcases h with h | ⟨i, h3, h4, h5⟩
  · exact .inl h
  · exact .inr ⟨i, by omega, by omega, h5⟩

mutual
theorem exprNames_mono {P Q : Name → Prop} (h : ∀ x, P x → Q x) : ∀ e : FExpr F, e.NamesIn P → e.NamesIn Q
  | .const _, _ => trivial
  | .var x, k => h x k
  | .wild, _ => trivial
  | .bin _ a b, k => ⟨exprNames_mono h a k.1, exprNames_mono h b k.2⟩
  | .un _ a, k => by simp only [FExpr.NamesIn] at k ⊢; exact exprNames_mono h a k
  | .ite c t e, k => ⟨exprNames_mono h c k.1, exprNames_mono h t k.2.1, exprNames_mono h e k.2.2⟩
  | .call _ args, k => by simp only [FExpr.NamesIn] at k ⊢; exact exprsNames_mono h args k
  | .new _ args, k => by simp only [FExpr.NamesIn] at k ⊢; exact exprsNames_mono h args k
theorem exprsNames_mono {P Q : Name → Prop} (h : ∀ x, P x → Q x) : ∀ es : List (FExpr F), FExpr.AllNamesIn P es → FExpr.AllNamesIn Q es
  | [], _ => trivial
  | e :: es, k => ⟨exprNames_mono h e k.1, exprsNames_mono h es k.2⟩
end

theorem atomsHold_congr {P : Name → Prop} {V : Name → Prop} {σ τ : Name → Val F} (h : ∀ x, P x → σ x = τ x) {fs : List (Formula F)}
    (hf : ∀ g ∈ fs, ∃ p as, g = .atom p as ∧ FExpr.AllNamesIn P as) :
    (∀ g ∈ fs, g.Holds X D G V σ) ↔ (∀ g ∈ fs, g.Holds X D G V τ) := by
  refine forall₂_congr fun g hg => ?_
  obtain ⟨p, as, rfl, hn⟩ := hf g hg
  simp only [Formula.Holds, allEvalTo_congr h as hn]

mutual
theorem arg_scope (v : Name) : ∀ (e : Entity F), (e.NamesIn (fun x => ∀ i, x ≠ .adtVar v i)) → ∀ n,
    n ≤ (e.arg v n).2.2 ∧ (e.arg v n).1.NamesIn (AdtScope v n (e.arg v n).2.2) ∧
      ∀ g ∈ (e.arg v n).2.1, ∃ p as, g = .atom p as ∧ FExpr.AllNamesIn (AdtScope v n (e.arg v n).2.2) as
  | .expr e, hn, n => by
    simp only [Entity.NamesIn] at hn
    simp only [Entity.arg, Nat.le_refl, true_and, List.not_mem_nil, false_implies, implies_true, and_true]
    exact exprNames_mono (fun x hx => .inl hx) e hn
  | .object f as, hn, n => by
    simp only [Entity.NamesIn] at hn
    obtain ⟨h1, h2, h3⟩ := args_scope v as hn (n + 1)
    simp only [Entity.arg]
    refine ⟨by omega, .inr ⟨n, by omega, by omega, rfl⟩, ?_⟩
    simp only [List.mem_append, List.mem_singleton]
    rintro g (h | rfl)
    · obtain ⟨p, as', e, h4⟩ := h3 g h
      exact ⟨p, as', e, exprsNames_mono (fun x hx => hx.mono (by omega) (Nat.le_refl _)) _ h4⟩
    · exact ⟨_, _, rfl, .inr ⟨n, by omega, by omega, rfl⟩, exprsNames_mono (fun x hx => hx.mono (by omega) (Nat.le_refl _)) _ h2⟩
theorem args_scope (v : Name) : ∀ (es : List (Entity F)), (Entity.AllNamesIn (fun x => ∀ i, x ≠ .adtVar v i) es) → ∀ n,
    n ≤ (Entity.args v es n).2.2 ∧ FExpr.AllNamesIn (AdtScope v n (Entity.args v es n).2.2) (Entity.args v es n).1 ∧
      ∀ g ∈ (Entity.args v es n).2.1, ∃ p as, g = .atom p as ∧ FExpr.AllNamesIn (AdtScope v n (Entity.args v es n).2.2) as
  | [], hn, n => by simp [Entity.args, FExpr.AllNamesIn]
  | e :: es, hn, n => by
    obtain ⟨h1, h2, h3⟩ := arg_scope v e hn.1 n
    obtain ⟨k1, k2, k3⟩ := args_scope v es hn.2 (e.arg v n).2.2
    simp only [Entity.args]
    refine ⟨by omega, ⟨exprNames_mono (fun x hx => hx.mono (Nat.le_refl _) k1) _ h2,
      exprsNames_mono (fun x hx => hx.mono h1 (Nat.le_refl _)) _ k2⟩, ?_⟩
    simp only [List.mem_append]
    rintro g (h | h)
    · obtain ⟨p, as', e, h4⟩ := h3 g h
      exact ⟨p, as', e, exprsNames_mono (fun x hx => hx.mono (Nat.le_refl _) k1) _ h4⟩
    · obtain ⟨p, as', e, h4⟩ := k3 g h
      exact ⟨p, as', e, exprsNames_mono (fun x hx => hx.mono h1 (Nat.le_refl _)) _ h4⟩
end

mutual
theorem arg_sound {V : Name → Prop} {σ : Name → Val F} (v : Name) : ∀ (e : Entity F) n, (∀ g ∈ (e.arg v n).2.1, g.Holds X D G V σ) →
    ∀ w, (e.arg v n).1.EvalsTo X σ w → e.Matches X D σ w
  | .expr e, n, _, w, h => by simpa [Entity.arg, Entity.Matches] using h
  | .object f as, n, hf, w, h => by
    simp only [Entity.arg, List.mem_append, List.mem_singleton, or_imp, forall_and, forall_eq] at hf
    simp only [Entity.arg, FExpr.EvalsTo] at h
    obtain ⟨hf1, hf2⟩ := hf
    simp only [Formula.Holds, FExpr.AllEvalTo, FExpr.EvalsTo] at hf2
    obtain ⟨vs, ⟨w', ws, rfl, rfl, h3⟩, h4⟩ := hf2
    simp only [Entity.Matches]
    exact ⟨ws, args_sound v as _ hf1 ws h3, h ▸ h4⟩
theorem args_sound {V : Name → Prop} {σ : Name → Val F} (v : Name) : ∀ (es : List (Entity F)) n,
    (∀ g ∈ (Entity.args v es n).2.1, g.Holds X D G V σ) →
    ∀ ws, FExpr.AllEvalTo X σ (Entity.args v es n).1 ws → Entity.AllMatch X D σ es ws
  | [], n, _, ws, h => by simpa [Entity.args, FExpr.AllEvalTo, Entity.AllMatch] using h
  | e :: es, n, hf, ws, h => by
    simp only [Entity.args, List.mem_append, or_imp, forall_and] at hf
    simp only [Entity.args, FExpr.AllEvalTo] at h
    obtain ⟨w, ws', rfl, h1, h2⟩ := h
    exact ⟨w, ws', rfl, arg_sound v e _ hf.1 w h1, args_sound v es _ hf.2 ws' h2⟩
end

/-- `τ` differs from `σ` only on the variables made for the objects numbered from `n` to `m`. -/
def AdtDiff (v : Name) (n m : Nat) (σ τ : Name → Val F) : Prop := ∀ x, (∀ i, n ≤ i → i < m → x ≠ .adtVar v i) → τ x = σ x

mutual
theorem arg_complete {V : Name → Prop} (v : Name) : ∀ (e : Entity F), (e.NamesIn (fun x => ∀ i, x ≠ .adtVar v i)) → ∀ n (σ : Name → Val F) w,
    e.Matches X D σ w → ∃ τ, AdtDiff v n (e.arg v n).2.2 σ τ ∧ (∀ g ∈ (e.arg v n).2.1, g.Holds X D G V τ) ∧ (e.arg v n).1.EvalsTo X τ w
  | .expr e, hn, n, σ, w, h => by
    simp only [Entity.Matches] at h
    exact ⟨σ, fun _ _ => rfl, by simp [Entity.arg], by simpa [Entity.arg] using h⟩
  | .object f as, hn, n, σ, w, h => by
    simp only [Entity.NamesIn] at hn
    simp only [Entity.Matches] at h
    obtain ⟨vs, h1, h2⟩ := h
    obtain ⟨τ, t1, t2, t3⟩ := args_complete (V := V) v as hn (n + 1) σ vs h1
    obtain ⟨s1, s2, s3⟩ := args_scope v as hn (n + 1)
    have hag : ∀ x, AdtScope v (n + 1) (Entity.args v as (n + 1)).2.2 x → τ x = (fun x => if x = .adtVar v n then w else τ x) x := by
      intro x hx
      have : x ≠ .adtVar v n := by
        rcases hx with hx | ⟨i, h3, h4, rfl⟩
        · exact hx n
        · intro k
          simp only [Name.adtVar.injEq, true_and] at k
          omega
      simp [this]
    refine ⟨fun x => if x = .adtVar v n then w else τ x, ?_, ?_, ?_⟩
    · intro x hx
      simp only [Entity.arg] at hx
      simp only [if_neg (hx n (Nat.le_refl _) (by omega))]
      exact t1 x (fun i h3 h4 => hx i (by omega) h4)
    · simp only [Entity.arg, List.mem_append, List.mem_singleton, or_imp, forall_and, forall_eq]
      refine ⟨(atomsHold_congr hag s3).1 t2, ?_⟩
      simp only [Formula.Holds, FExpr.AllEvalTo, FExpr.EvalsTo]
      exact ⟨w :: vs, ⟨w, vs, rfl, by simp, (allEvalTo_congr hag _ s2 vs).1 t3⟩, h2⟩
    · simp [Entity.arg, FExpr.EvalsTo]
theorem args_complete {V : Name → Prop} (v : Name) : ∀ (es : List (Entity F)), (Entity.AllNamesIn (fun x => ∀ i, x ≠ .adtVar v i) es) →
    ∀ n (σ : Name → Val F) ws, Entity.AllMatch X D σ es ws →
    ∃ τ, AdtDiff v n (Entity.args v es n).2.2 σ τ ∧ (∀ g ∈ (Entity.args v es n).2.1, g.Holds X D G V τ) ∧
      FExpr.AllEvalTo X τ (Entity.args v es n).1 ws
  | [], hn, n, σ, ws, h => by
    simp only [Entity.AllMatch] at h
    exact ⟨σ, fun _ _ => rfl, by simp [Entity.args], by simpa [Entity.args, FExpr.AllEvalTo] using h⟩
  | e :: es, hn, n, σ, ws, h => by
    simp only [Entity.AllMatch] at h
    obtain ⟨w, ws', rfl, h1, h2⟩ := h
    obtain ⟨τ, t1, t2, t3⟩ := arg_complete (V := V) v e hn.1 n σ w h1
    obtain ⟨s1, s2, s3⟩ := arg_scope v e hn.1 n
    have hτ : Entity.AllMatch X D τ es ws' :=
      (allMatch_congr (P := fun x => ∀ i, x ≠ .adtVar v i) (fun x hx => (t1 x (fun i _ _ => hx i)).symm) es hn.2 ws').1 h2
    obtain ⟨ρ, r1, r2, r3⟩ := args_complete (V := V) v es hn.2 (e.arg v n).2.2 τ ws' hτ
    obtain ⟨u1, u2, u3⟩ := args_scope v es hn.2 (e.arg v n).2.2
    have hag : ∀ x, AdtScope v n (e.arg v n).2.2 x → τ x = ρ x := by
      intro x hx
      refine (r1 x (fun i h3 h4 => ?_)).symm
      rcases hx with hx | ⟨j, h5, h6, rfl⟩
      · exact hx i
      · intro k
        simp only [Name.adtVar.injEq, true_and] at k
        omega
    refine ⟨ρ, ?_, ?_, ?_⟩
    · intro x hx
      simp only [Entity.args] at hx
      rw [r1 x (fun i h3 h4 => hx i (by omega) h4), t1 x (fun i h3 h4 => hx i h3 (by omega))]
    · simp only [Entity.args, List.mem_append, or_imp, forall_and]
      exact ⟨(atomsHold_congr hag s3).1 t2, r2⟩
    · exact ⟨w, ws', rfl, (evalsTo_congr hag _ s2 w).1 t3, r3⟩
end

end Scallop.Front
