import Verif.Proof.Front4

/-! # What desugaring preserves and accepts -/

namespace Scallop.Front

open Scallop.Back (Term Atom AExpr COp Lit Head Rule)

variable {F : Type} {X : Ext F} {D : DB F} {G : Aggs F}

mutual
theorem arg_source (v : Name) : ∀ (e : Entity F), (e.NamesIn Name.IsSource) → ∀ n,
    (e.arg v n).1.NamesIn Name.IsSource ∧ ∀ g ∈ (e.arg v n).2.1, g.NamesIn Name.IsSource
  | .expr e, hn, n => by
    simp only [Entity.NamesIn] at hn
    simpa [Entity.arg] using hn
  | .object f as, hn, n => by
    simp only [Entity.NamesIn] at hn
    obtain ⟨h2, h3⟩ := args_source v as hn (n + 1)
    simp only [Entity.arg, List.mem_append, List.mem_singleton]
    refine ⟨trivial, ?_⟩
    rintro g (h | rfl)
    · exact h3 g h
    · exact ⟨trivial, h2⟩
theorem args_source (v : Name) : ∀ (es : List (Entity F)), (Entity.AllNamesIn Name.IsSource es) → ∀ n,
    FExpr.AllNamesIn Name.IsSource (Entity.args v es n).1 ∧ ∀ g ∈ (Entity.args v es n).2.1, g.NamesIn Name.IsSource
  | [], hn, n => by simp [Entity.args, FExpr.AllNamesIn]
  | e :: es, hn, n => by
    obtain ⟨h2, h3⟩ := arg_source v e hn.1 n
    obtain ⟨k2, k3⟩ := args_source v es hn.2 (e.arg v n).2.2
    simp only [Entity.args, List.mem_append]
    refine ⟨⟨h2, k2⟩, ?_⟩
    rintro g (h | h)
    · exact h3 g h
    · exact k3 g h
end

theorem visit_names (f f' : Formula F) (hf : f.NamesIn Name.IsSource) (e : visit f = some f') : f'.NamesIn Name.IsSource := by
  cases f with
  | case v en =>
    cases en with
    | expr c =>
      simp only [visit, desugarCaseIs, desugarForallExists, desugarRange, transformForall, Option.bind_some, transformImplies,
        Option.some.injEq] at e
      subst e
      exact hf
    | object g as =>
      simp only [visit, desugarCaseIs, desugarForallExists, desugarRange, transformForall, Option.bind_some, transformImplies,
        Option.some.injEq] at e
      subst e
      obtain ⟨h1, h2⟩ := args_source v as hf.2 0
      simp only [Formula.NamesIn, allNamesIn_iff, List.mem_append, List.mem_singleton]
      rintro k (hk | rfl)
      · exact h2 k hk
      · exact ⟨hf.1, h1⟩
  | range x lo hi inc =>
    cases inc <;> simp [visit, desugarCaseIs, desugarForallExists, desugarRange, transformForall, transformImplies] at e <;>
      subst e <;> simp only [Formula.NamesIn, FExpr.AllNamesIn, FExpr.NamesIn]
    · exact ⟨hf.2.1, hf.2.2, hf.1, trivial⟩
    · exact ⟨hf.2.1, ⟨hf.2.2, trivial⟩, hf.1, trivial⟩
  | implies l r =>
    simp only [visit, desugarCaseIs, desugarForallExists, desugarRange, transformForall, Option.bind_some, transformImplies,
      Option.map_eq_some_iff] at e
    obtain ⟨l', e1, rfl⟩ := e
    exact ⟨negate_names l hf.1 l' e1, hf.2, trivial⟩
  | reduce left op args bindings body gv gb =>
    simp only [visit, desugarCaseIs, desugarForallExists, desugarRange] at e
    unfold transformForall at e
    split at e
    · rename_i b _ _ l r _ _ heq
      simp only [Formula.reduce.injEq] at heq
      obtain ⟨rfl, rfl, rfl, rfl, rfl, rfl, rfl⟩ := heq
      simp only [Option.bind_eq_some_iff, Option.map_eq_some_iff] at e
      obtain ⟨_, ⟨r', e1, rfl⟩, e2⟩ := e
      simp only [transformImplies, Option.some.injEq] at e2
      subst e2
      obtain ⟨h1, h2, h3, h4, h5, h6⟩ := hf
      refine ⟨⟨h1 b (by simp), trivial⟩, ⟨?_, h2, h3, ⟨h4.1, negate_names r h4.2 r' e1, trivial⟩, h5, h6⟩, trivial⟩
      intro b' hb'
      simp at hb'
      subst hb'
      trivial
    · simp only [Option.bind_some, transformImplies, Option.some.injEq] at e
      subst e
      exact hf
  | quant n negated op bindings body gv gb =>
    simp only [visit, desugarCaseIs, desugarForallExists, desugarRange, transformForall, Option.bind_some, transformImplies,
      Option.some.injEq] at e
    subst e
    obtain ⟨h3, h4, h5, h6⟩ := hf
    refine ⟨⟨?_, by simp, h3, h4, h5, h6⟩, ⟨trivial, trivial⟩, trivial⟩
    intro b' hb'
    simp at hb'
    subst hb'
    trivial
  | _ =>
    simp only [visit, desugarCaseIs, desugarForallExists, desugarRange, transformForall, Option.bind_some, transformImplies,
      Option.some.injEq] at e
    subst e
    exact hf

theorem walkList_pres {w : Formula F → Outcome (Formula F)} {P Q : Formula F → Prop} (hw : ∀ f f', P f → w f = .ok f' → Q f') :
    ∀ fs fs' : List (Formula F), (∀ f ∈ fs, P f) → walkList w fs = .ok fs' → (∀ f ∈ fs', Q f) ∧ (fs' = [] ↔ fs = [])
  | [], fs', _, e => by
    simp only [walkList, Outcome.ok.injEq] at e
    subst e
    simp
  | f :: fs, fs', h, e => by
    simp only [walkList] at e
    obtain ⟨f', e1, e⟩ := bind_ok e
    obtain ⟨fs1, e2, e⟩ := bind_ok e
    simp only [Outcome.ok.injEq] at e
    subst e
    have := walkList_pres hw fs fs1 (fun g hg => h g (by simp [hg])) e2
    exact ⟨by simpa using ⟨hw f f' (h f (by simp)) e1, this.1⟩, by simp⟩

theorem walk_names : ∀ (n : Nat) (f f' : Formula F), f.NamesIn Name.IsSource → walk n f = .ok f' → f'.NamesIn Name.IsSource
  | 0, f, f', _, e => by simp [walk] at e
  | n + 1, f, f', hf, e => by
    rw [walk_succ] at e
    split at e
    · simp at e
    · rename_i f1 e1
      have h1 := visit_names f f1 hf e1
      have ih := walkList_pres (w := walk n) (P := fun f => f.NamesIn Name.IsSource) (Q := fun f => f.NamesIn Name.IsSource)
        (fun f f' => walk_names n f f')
      cases f1 with
      | disj fs =>
        simp only [walkChildren] at e
        obtain ⟨fs1, e2, e⟩ := bind_ok e
        simp only [Outcome.ok.injEq] at e
        subst e
        exact (allNamesIn_iff _).2 (ih fs fs1 ((allNamesIn_iff _).1 h1) e2).1
      | conj fs =>
        simp only [walkChildren] at e
        obtain ⟨fs1, e2, e⟩ := bind_ok e
        simp only [Outcome.ok.injEq] at e
        subst e
        exact (allNamesIn_iff _).2 (ih fs fs1 ((allNamesIn_iff _).1 h1) e2).1
      | implies l r =>
        simp only [walkChildren] at e
        obtain ⟨l1, e2, e⟩ := bind_ok e
        obtain ⟨r1, e3, e⟩ := bind_ok e
        simp only [Outcome.ok.injEq] at e
        subst e
        exact ⟨walk_names n l l1 h1.1 e2, walk_names n r r1 h1.2 e3⟩
      | reduce left op args bindings body gv gb =>
        simp only [walkChildren] at e
        obtain ⟨b1, e2, e⟩ := bind_ok e
        obtain ⟨g1, e3, e⟩ := bind_ok e
        simp only [Outcome.ok.injEq] at e
        subst e
        obtain ⟨h1, h2, h3, h4, h5, h6⟩ := h1
        exact ⟨h1, h2, h3, walk_names n body b1 h4 e2, h5, (allNamesIn_iff _).2 (ih gb g1 ((allNamesIn_iff _).1 h6) e3).1⟩
      | quant m ng op bindings body gv gb =>
        simp only [walkChildren] at e
        obtain ⟨b1, e2, e⟩ := bind_ok e
        obtain ⟨g1, e3, e⟩ := bind_ok e
        simp only [Outcome.ok.injEq] at e
        subst e
        obtain ⟨h3, h4, h5, h6⟩ := h1
        exact ⟨h3, walk_names n body b1 h4 e2, h5, (allNamesIn_iff _).2 (ih gb g1 ((allNamesIn_iff _).1 h6) e3).1⟩
      | _ =>
        simp only [walkChildren, Outcome.ok.injEq] at e
        subst e
        exact h1

mutual
theorem negate_nonEmpty : ∀ (f : Formula F), f.NonEmpty → ∀ f', f.negate = some f' → f'.NonEmpty
  | .atom p args, _, f', e => by
    simp only [Formula.negate, Option.some.injEq] at e
    subst e
    trivial
  | .neg p args, _, f', e => by
    simp only [Formula.negate, Option.some.injEq] at e
    subst e
    trivial
  | .disj fs, h, f', e => by
    simp only [Formula.negate, Option.map_eq_some_iff] at e
    obtain ⟨fs', e1, rfl⟩ := e
    obtain ⟨h1, h2⟩ := negateAll_nonEmpty fs h.2 fs' e1
    exact ⟨fun k => h.1 (h2 k), h1⟩
  | .conj fs, h, f', e => by
    simp only [Formula.negate, Option.map_eq_some_iff] at e
    obtain ⟨fs', e1, rfl⟩ := e
    obtain ⟨h1, h2⟩ := negateAll_nonEmpty fs h.2 fs' e1
    exact ⟨fun k => h.1 (h2 k), h1⟩
  | .implies l r, h, f', e => by
    simp only [Formula.negate, Option.map_eq_some_iff] at e
    obtain ⟨r', e1, rfl⟩ := e
    exact ⟨by simp, h.1, negate_nonEmpty r h.2 r' e1, trivial⟩
  | .case _ _, _, f', e => by simp [Formula.negate] at e
  | .constraint _, _, f', e => by simp [Formula.negate] at e
  | .reduce .., _, f', e => by simp [Formula.negate] at e
  | .quant .., _, f', e => by simp [Formula.negate] at e
  | .range .., _, f', e => by simp [Formula.negate] at e
theorem negateAll_nonEmpty : ∀ (fs : List (Formula F)), Formula.NonEmpty.allNonEmpty fs → ∀ fs', Formula.negate.negateAll fs = some fs' →
    Formula.NonEmpty.allNonEmpty fs' ∧ (fs' = [] → fs = [])
  | [], _, fs', e => by
    simp only [Formula.negate.negateAll, Option.some.injEq] at e
    subst e
    exact ⟨trivial, fun _ => rfl⟩
  | f :: fs, h, fs', e => by
    simp only [Formula.negate.negateAll, Option.bind_eq_some_iff, Option.map_eq_some_iff] at e
    obtain ⟨f', e1, fs1, e2, rfl⟩ := e
    exact ⟨⟨negate_nonEmpty f h.1 f' e1, (negateAll_nonEmpty fs h.2 fs1 e2).1⟩, by simp⟩
end

mutual
theorem negate_plain : ∀ (f : Formula F), f.Plain → ∀ f', f.negate = some f' → f'.Plain
  | .atom p args, h, f', e => by
    simp only [Formula.negate, Option.some.injEq] at e
    subst e
    exact h
  | .neg p args, h, f', e => by
    simp only [Formula.negate, Option.some.injEq] at e
    subst e
    exact h
  | .disj fs, h, f', e => by
    simp only [Formula.negate, Option.map_eq_some_iff] at e
    obtain ⟨fs', e1, rfl⟩ := e
    exact negateAll_plain fs h fs' e1
  | .conj fs, h, f', e => by
    simp only [Formula.negate, Option.map_eq_some_iff] at e
    obtain ⟨fs', e1, rfl⟩ := e
    exact negateAll_plain fs h fs' e1
  | .implies l r, h, f', e => by
    simp only [Formula.negate, Option.map_eq_some_iff] at e
    obtain ⟨r', e1, rfl⟩ := e
    exact ⟨h.1, negate_plain r h.2 r' e1, trivial⟩
  | .case _ _, _, f', e => by simp [Formula.negate] at e
  | .constraint _, _, f', e => by simp [Formula.negate] at e
  | .reduce .., _, f', e => by simp [Formula.negate] at e
  | .quant .., _, f', e => by simp [Formula.negate] at e
  | .range .., _, f', e => by simp [Formula.negate] at e
theorem negateAll_plain : ∀ (fs : List (Formula F)), Formula.Plain.allPlain fs → ∀ fs', Formula.negate.negateAll fs = some fs' →
    Formula.Plain.allPlain fs'
  | [], _, fs', e => by
    simp only [Formula.negate.negateAll, Option.some.injEq] at e
    subst e
    trivial
  | f :: fs, h, fs', e => by
    simp only [Formula.negate.negateAll, Option.bind_eq_some_iff, Option.map_eq_some_iff] at e
    obtain ⟨f', e1, fs1, e2, rfl⟩ := e
    exact ⟨negate_plain f h.1 f' e1, negateAll_plain fs h.2 fs1 e2⟩
end

mutual
theorem plain_plainNeg : ∀ (f : Formula F), f.Plain → f.PlainNeg
  | .atom _ _, _ => trivial
  | .neg _ _, h => h
  | .disj fs, h => by simp only [Formula.PlainNeg]; exact plain_plainNegAll fs h
  | .conj fs, h => by simp only [Formula.PlainNeg]; exact plain_plainNegAll fs h
  | .implies l r, h => ⟨h.1, plain_plainNeg r h.2⟩
  | .case _ _, _ => trivial
  | .constraint _, _ => trivial
  | .reduce .., _ => trivial
  | .quant .., _ => trivial
  | .range .., _ => trivial
theorem plain_plainNegAll : ∀ (fs : List (Formula F)), Formula.Plain.allPlain fs → Formula.PlainNeg.allPlainNeg fs
  | [], _ => trivial
  | f :: fs, h => ⟨plain_plainNeg f h.1, plain_plainNegAll fs h.2⟩
end

theorem visit_good (f f' : Formula F) (hf : f.NonEmpty ∧ f.PlainNeg) (e : visit f = some f') : f'.NonEmpty ∧ f'.PlainNeg := by
  cases f with
  | case v en =>
    rcases visit_case v en with ⟨c, h1⟩ | ⟨fs, h1, h2⟩
    · rw [h1, Option.some.injEq] at e
      subst e
      exact ⟨trivial, trivial⟩
    · have hne : fs ≠ [] := by
        rintro rfl
        cases en <;> simp [visit, desugarCaseIs, desugarForallExists, desugarRange, transformForall, transformImplies] at h1
      rw [h1, Option.some.injEq] at e
      subst e
      refine ⟨⟨hne, (allNonEmpty_iff fs).2 fun g hg => ?_⟩, (allPlainNeg_iff fs).2 fun g hg => ?_⟩ <;>
      · obtain ⟨p, as, rfl⟩ := h2 g hg
        trivial
  | range x lo hi inc =>
    cases inc <;> simp [visit, desugarCaseIs, desugarForallExists, desugarRange, transformForall, transformImplies] at e <;>
      subst e <;> exact ⟨trivial, trivial⟩
  | implies l r =>
    simp only [visit, desugarCaseIs, desugarForallExists, desugarRange, transformForall, Option.bind_some, transformImplies,
      Option.map_eq_some_iff] at e
    obtain ⟨l', e1, rfl⟩ := e
    exact ⟨⟨by simp, negate_nonEmpty l hf.1.1 l' e1, hf.1.2, trivial⟩, plain_plainNeg _ (negate_plain l hf.2.1 l' e1), hf.2.2, trivial⟩
  | reduce left op args bindings body gv gb =>
    simp only [visit, desugarCaseIs, desugarForallExists, desugarRange] at e
    unfold transformForall at e
    split at e
    · simp only [Option.bind_eq_some_iff, Option.map_eq_some_iff] at e
      obtain ⟨_, ⟨r', e1, rfl⟩, e2⟩ := e
      simp only [transformImplies, Option.some.injEq] at e2
      subst e2
      exact ⟨⟨by simp, trivial, trivial, trivial⟩, trivial, trivial, trivial⟩
    · simp only [Option.bind_some, transformImplies, Option.some.injEq] at e
      subst e
      exact ⟨trivial, trivial⟩
  | quant n negated op bindings body gv gb =>
    simp only [visit, desugarCaseIs, desugarForallExists, desugarRange, transformForall, Option.bind_some, transformImplies,
      Option.some.injEq] at e
    subst e
    exact ⟨⟨by simp, trivial, trivial, trivial⟩, trivial, trivial, trivial⟩
  | _ =>
    simp only [visit, desugarCaseIs, desugarForallExists, desugarRange, transformForall, Option.bind_some, transformImplies,
      Option.some.injEq] at e
    subst e
    exact hf

theorem walk_good : ∀ (n : Nat) (f f' : Formula F), f.NonEmpty ∧ f.PlainNeg → walk n f = .ok f' → f'.NonEmpty ∧ f'.PlainNeg
  | 0, f, f', _, e => by simp [walk] at e
  | n + 1, f, f', hf, e => by
    rw [walk_succ] at e
    split at e
    · simp at e
    · rename_i f1 e1
      have h1 := visit_good f f1 hf e1
      obtain ⟨k1, -, -, -⟩ := visit_kind f f1 e1
      have ih := walkList_pres (w := walk n) (P := fun f => f.NonEmpty ∧ f.PlainNeg) (Q := fun f => f.NonEmpty ∧ f.PlainNeg)
        (fun f f' => walk_good n f f')
      cases f1 with
      | disj fs =>
        simp only [walkChildren] at e
        obtain ⟨fs1, e2, e⟩ := bind_ok e
        simp only [Outcome.ok.injEq] at e
        subst e
        obtain ⟨a, b⟩ := ih fs fs1 (fun f hf => ⟨(allNonEmpty_iff _).1 h1.1.2 f hf, (allPlainNeg_iff _).1 h1.2 f hf⟩) e2
        exact ⟨⟨fun k => h1.1.1 (b.1 k), (allNonEmpty_iff _).2 fun f hf => (a f hf).1⟩, (allPlainNeg_iff _).2 fun f hf => (a f hf).2⟩
      | conj fs =>
        simp only [walkChildren] at e
        obtain ⟨fs1, e2, e⟩ := bind_ok e
        simp only [Outcome.ok.injEq] at e
        subst e
        obtain ⟨a, b⟩ := ih fs fs1 (fun f hf => ⟨(allNonEmpty_iff _).1 h1.1.2 f hf, (allPlainNeg_iff _).1 h1.2 f hf⟩) e2
        exact ⟨⟨fun k => h1.1.1 (b.1 k), (allNonEmpty_iff _).2 fun f hf => (a f hf).1⟩, (allPlainNeg_iff _).2 fun f hf => (a f hf).2⟩
      | implies l r => exact absurd rfl (k1 l r)
      | reduce left op args bindings body gv gb =>
        simp only [walkChildren] at e
        obtain ⟨b1, e2, e⟩ := bind_ok e
        obtain ⟨g1, e3, e⟩ := bind_ok e
        simp only [Outcome.ok.injEq] at e
        subst e
        exact ⟨trivial, trivial⟩
      | quant m ng op bindings body gv gb =>
        simp only [walkChildren] at e
        obtain ⟨b1, e2, e⟩ := bind_ok e
        obtain ⟨g1, e3, e⟩ := bind_ok e
        simp only [Outcome.ok.injEq] at e
        subst e
        exact ⟨trivial, trivial⟩
      | _ =>
        simp only [walkChildren, Outcome.ok.injEq] at e
        subst e
        exact h1

/-! ## Literals of a conjunction -/

/-- The literals of a conjunction are where they belong. -/
def Sorted (c : ConjCtx F) : Prop :=
  (∀ l ∈ c.pos, (∃ p as, l = .atom p as) ∨ ∃ e, l = .constraint e) ∧ (∀ l ∈ c.neg, ∃ p as, l = .neg p as) ∧
    ∀ l ∈ c.agg, ∃ a b d e f g h, l = .reduce a b d e f g h

theorem join_sorted : ∀ (cs : List (ConjCtx F)) (a : ConjCtx F), Sorted a → (∀ c ∈ cs, Sorted c) →
    Sorted (cs.foldl (fun acc new => (⟨acc.pos ++ new.pos, acc.neg ++ new.neg, acc.agg ++ new.agg⟩ : ConjCtx F)) a)
  | [], a, ha, _ => ha
  | c :: cs, a, ha, h => by
    rw [List.foldl_cons]
    refine join_sorted cs _ ?_ (fun d hd => h d (by simp [hd]))
    have hc := h c (by simp)
    refine ⟨fun l hl => ?_, fun l hl => ?_, fun l hl => ?_⟩ <;> rcases List.mem_append.1 hl with hl | hl
    · exact ha.1 l hl
    · exact hc.1 l hl
    · exact ha.2.1 l hl
    · exact hc.2.1 l hl
    · exact ha.2.2 l hl
    · exact hc.2.2 l hl

mutual
theorem fromFormula_sorted : ∀ (f : Formula F) cs, fromFormula f = some cs → ∀ c ∈ cs, Sorted c
  | .disj fs, cs, e, c, hm => by
    simp only [fromFormula, Option.map_eq_some_iff] at e
    obtain ⟨css, e1, rfl⟩ := e
    obtain ⟨cs', h1, h2⟩ := List.mem_flatten.1 hm
    exact fromAll_sorted fs css e1 cs' h1 c h2
  | .conj fs, cs, e, c, hm => by
    simp only [fromFormula, Option.map_eq_some_iff] at e
    obtain ⟨css, e1, rfl⟩ := e
    obtain ⟨xs, h1, rfl⟩ := List.mem_map.1 hm
    refine join_sorted xs _ (by simp [Sorted]) (fun c' hc' => ?_)
    obtain ⟨cs', h4, h5⟩ := multiProduct_mem css xs h1 c' hc'
    exact fromAll_sorted fs css e1 cs' h4 c' h5
  | .atom p args, cs, e, c, hm => by
    simp only [fromFormula, Option.some.injEq] at e
    subst e
    simp at hm
    subst hm
    simp [Sorted]
  | .neg p args, cs, e, c, hm => by
    simp only [fromFormula, Option.some.injEq] at e
    subst e
    simp at hm
    subst hm
    simp [Sorted]
  | .constraint k, cs, e, c, hm => by
    simp only [fromFormula, Option.some.injEq] at e
    subst e
    simp at hm
    subst hm
    simp [Sorted]
  | .reduce .., cs, e, c, hm => by
    simp only [fromFormula, Option.some.injEq] at e
    subst e
    simp at hm
    subst hm
    simp [Sorted]
  | .implies _ _, cs, e, _, _ => by simp [fromFormula] at e
  | .case _ _, cs, e, _, _ => by simp [fromFormula] at e
  | .quant .., cs, e, _, _ => by simp [fromFormula] at e
  | .range .., cs, e, _, _ => by simp [fromFormula] at e
theorem fromAll_sorted : ∀ (fs : List (Formula F)) css, fromFormula.fromAll fs = some css → ∀ cs ∈ css, ∀ c ∈ cs, Sorted c
  | [], css, e, cs, hm, _, _ => by
    simp only [fromFormula.fromAll, Option.some.injEq] at e
    subst e
    simp at hm
  | f :: fs, css, e, cs, hm, c, hc' => by
    simp only [fromFormula.fromAll, Option.bind_eq_some_iff, Option.map_eq_some_iff] at e
    obtain ⟨cs', e1, css', e2, rfl⟩ := e
    rcases List.mem_cons.1 hm with rfl | hm
    · exact fromFormula_sorted f _ e1 c hc'
    · exact fromAll_sorted fs css' e2 cs hm c hc'
end

/-! ## Acceptance -/

theorem allAccepted_iff : ∀ fs : List (Formula F), Formula.Accepted.allAccepted fs ↔ ∀ f ∈ fs, f.Accepted
  | [] => by simp [Formula.Accepted.allAccepted]
  | f :: fs => by simp [Formula.Accepted.allAccepted, allAccepted_iff fs]

mutual
theorem negatable_negate : ∀ (f : Formula F), f.Negatable → f.Accepted → ∃ f', f.negate = some f' ∧ f'.Accepted
  | .atom p args, _, _ => ⟨_, rfl, trivial⟩
  | .neg p args, _, _ => ⟨_, rfl, trivial⟩
  | .disj fs, h, k => by
    obtain ⟨fs', e1, e2⟩ := negatable_negateAll fs h k
    exact ⟨.conj fs', by simp only [Formula.negate, e1, Option.map_some], e2⟩
  | .conj fs, h, k => by
    obtain ⟨fs', e1, e2⟩ := negatable_negateAll fs h k
    exact ⟨.disj fs', by simp only [Formula.negate, e1, Option.map_some], e2⟩
  | .implies l r, h, k => by
    obtain ⟨r', e1, e2⟩ := negatable_negate r h.2 k.2.2.2
    exact ⟨.conj [l, r'], by simp only [Formula.negate, e1, Option.map_some], k.2.2.1, e2, trivial⟩
  | .case _ _, h, _ => h.elim
  | .constraint _, h, _ => h.elim
  | .reduce .., h, _ => h.elim
  | .quant .., h, _ => h.elim
  | .range .., h, _ => h.elim
theorem negatable_negateAll : ∀ (fs : List (Formula F)), Formula.Negatable.allNegatable fs → Formula.Accepted.allAccepted fs →
    ∃ fs', Formula.negate.negateAll fs = some fs' ∧ Formula.Accepted.allAccepted fs'
  | [], _, _ => ⟨[], rfl, trivial⟩
  | f :: fs, h, k => by
    obtain ⟨f', e1, e2⟩ := negatable_negate f h.1 k.1
    obtain ⟨fs', e3, e4⟩ := negatable_negateAll fs h.2 k.2
    exact ⟨f' :: fs', by simp [Formula.negate.negateAll, e1, e3], e2, e4⟩
end

theorem visit_accepted (f : Formula F) (hf : f.Accepted) : ∃ f', visit f = some f' ∧ f'.Accepted := by
  have hred : ∀ left op args bindings body gv gb, (Formula.reduce left op args bindings body gv gb : Formula F).Accepted →
      ∃ f', (transformForall (.reduce left op args bindings body gv gb : Formula F)).bind transformImplies = some f' ∧ f'.Accepted := by
    intro left op args bindings body gv gb h
    unfold transformForall
    split
    · rename_i b _ _ l r _ _ heq
      simp only [Formula.reduce.injEq] at heq
      obtain ⟨rfl, rfl, rfl, rfl, rfl, rfl, rfl⟩ := heq
      obtain ⟨⟨h1, h2, h3, h4⟩, h5⟩ := h
      obtain ⟨r', e1, e2⟩ := negatable_negate r h2 h4
      rw [e1]
      exact ⟨_, rfl, trivial, ⟨⟨h3, e2, trivial⟩, h5⟩, trivial⟩
    · exact ⟨_, rfl, h⟩
  cases f with
  | case v en =>
    rcases visit_case v en with ⟨c, h1⟩ | ⟨fs, h1, h2⟩
    · exact ⟨_, h1, trivial⟩
    · refine ⟨_, h1, (allAccepted_iff fs).2 fun g hg => ?_⟩
      obtain ⟨p, as, rfl⟩ := h2 g hg
      trivial
  | range x lo hi inc => cases inc <;> exact ⟨_, rfl, trivial⟩
  | implies l r =>
    obtain ⟨l', e1, e2⟩ := negatable_negate l hf.1 hf.2.2.1
    exact ⟨.disj [l', r], by simp [visit, desugarCaseIs, desugarForallExists, desugarRange, transformForall, transformImplies, e1],
      e2, hf.2.2.2, trivial⟩
  | reduce left op args bindings body gv gb => exact hred _ _ _ _ _ _ _ hf
  | quant n negated op bindings body gv gb => exact ⟨_, rfl, hf, trivial, trivial⟩
  | _ => exact ⟨_, rfl, hf⟩

theorem bind_panic {α β : Type} {o : Outcome α} {h : α → Outcome β} (h1 : o ≠ .panic) (h2 : ∀ a, h a ≠ .panic) : o.bind h ≠ .panic := by
  cases o with
  | ok a => exact h2 a
  | undef => simp [Outcome.bind]
  | panic => exact absurd rfl h1

theorem walkList_panic {w : Formula F → Outcome (Formula F)} (hw : ∀ f : Formula F, f.Accepted → w f ≠ .panic) :
    ∀ fs : List (Formula F), Formula.Accepted.allAccepted fs → walkList w fs ≠ .panic
  | [], _ => by simp [walkList]
  | f :: fs, h => by
    simp only [walkList]
    exact bind_panic (hw f h.1) fun _ => bind_panic (walkList_panic hw fs h.2) fun _ => by simp

theorem walk_panic : ∀ (n : Nat) (f : Formula F), f.Accepted → walk n f ≠ .panic
  | 0, f, _ => by simp [walk]
  | n + 1, f, hf => by
    obtain ⟨f', e, ha⟩ := visit_accepted f hf
    rw [walk_succ, e]
    have hw := walk_panic n
    cases f' with
    | disj fs => exact bind_panic (walkList_panic hw fs ha) fun _ => by simp
    | conj fs => exact bind_panic (walkList_panic hw fs ha) fun _ => by simp
    | implies l r => exact bind_panic (hw l ha.2.2.1) fun _ => bind_panic (hw r ha.2.2.2) fun _ => by simp
    | reduce left op args bindings body gv gb => exact bind_panic (hw body ha.1) fun _ => bind_panic (walkList_panic hw gb ha.2) fun _ => by simp
    | quant m ng op bindings body gv gb => exact bind_panic (hw body ha.1) fun _ => bind_panic (walkList_panic hw gb ha.2) fun _ => by simp
    | _ => simp [walkChildren]

end Scallop.Front
