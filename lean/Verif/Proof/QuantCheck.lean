import Verif.Spec.QuantCheck

/-!
# The check of universal quantification: lemmas
-/

namespace Scallop.Front

variable {F : Type}

/-- A property of all the formulas inside a formula, by recursion. -/
def Formula.AllIn (P : Formula F → Prop) : Formula F → Prop
  | .disj fs => P (.disj fs) ∧ all fs
  | .conj fs => P (.conj fs) ∧ all fs
  | .implies l r => P (.implies l r) ∧ l.AllIn P ∧ r.AllIn P
  | .reduce left op args bindings b gv gb => P (.reduce left op args bindings b gv gb) ∧ b.AllIn P ∧ all gb
  | .quant n ng op bindings b gv gb => P (.quant n ng op bindings b gv gb) ∧ b.AllIn P ∧ all gb
  | f => P f
where
  /-- The same for a list. -/
  all : List (Formula F) → Prop
    | [] => True
    | f :: fs => f.AllIn P ∧ all fs

theorem allIn_all {P : Formula F → Prop} (fs : List (Formula F)) : Formula.AllIn.all P fs ↔ ∀ f ∈ fs, f.AllIn P := by
  induction fs with
  | nil => simp [Formula.AllIn.all]
  | cons f fs ih => simp [Formula.AllIn.all, ih]

theorem Formula.AllIn.here {P : Formula F → Prop} {f : Formula F} (h : f.AllIn P) : P f := by
  cases f <;> simp only [Formula.AllIn] at h <;> first | exact h | exact h.1

theorem AllIn.inside {P : Formula F → Prop} {g f : Formula F} (hi : Inside g f) (h : f.AllIn P) : P g := by
  induction hi with
  | here => exact h.here
  | disj hm _ ih | conj hm _ ih =>
    simp only [Formula.AllIn, allIn_all] at h
    exact ih (h.2 _ hm)
  | left _ ih => exact ih h.2.1
  | right _ ih => exact ih h.2.2
  | body _ ih | qbody _ ih => exact ih h.2.1
  | where_ hm _ ih | qwhere hm _ ih =>
    simp only [Formula.AllIn, allIn_all] at h
    exact ih (h.2.2 _ hm)

mutual
theorem allIn_of {P : Formula F → Prop} : ∀ f : Formula F, (∀ g, Inside g f → P g) → f.AllIn P
  | .atom _ _, h => h _ (.here _)
  | .neg _ _, h => h _ (.here _)
  | .case _ _, h => h _ (.here _)
  | .constraint _, h => h _ (.here _)
  | .range _ _ _ _, h => h _ (.here _)
  | .disj fs, h => ⟨h _ (.here _), allIn_of_all fs (fun _ hf g hg => h g (.disj hf hg))⟩
  | .conj fs, h => ⟨h _ (.here _), allIn_of_all fs (fun _ hf g hg => h g (.conj hf hg))⟩
  | .implies l r, h => ⟨h _ (.here _), allIn_of l (fun g hg => h g (.left hg)), allIn_of r (fun g hg => h g (.right hg))⟩
  | .reduce _ _ _ _ b _ gb, h =>
    ⟨h _ (.here _), allIn_of b (fun g hg => h g (.body hg)), allIn_of_all gb (fun _ hf g hg => h g (.where_ hf hg))⟩
  | .quant _ _ _ _ b _ gb, h =>
    ⟨h _ (.here _), allIn_of b (fun g hg => h g (.qbody hg)), allIn_of_all gb (fun _ hf g hg => h g (.qwhere hf hg))⟩
theorem allIn_of_all {P : Formula F → Prop} : ∀ fs : List (Formula F), (∀ f ∈ fs, ∀ g, Inside g f → P g) → Formula.AllIn.all P fs
  | [], _ => trivial
  | f :: fs, h => ⟨allIn_of f (h f List.mem_cons_self), allIn_of_all fs (fun f hf => h f (List.mem_cons_of_mem _ hf))⟩
end

theorem allIn_iff {P : Formula F → Prop} (f : Formula F) : f.AllIn P ↔ ∀ g, Inside g f → P g :=
  ⟨fun h _ hg => AllIn.inside hg h, allIn_of f⟩

/-! ### The check -/

theorem implication_iff (f : Formula F) : f.implication = false ↔ ¬ f.IsImplies := by
  cases f <;> simp [Formula.implication, Formula.IsImplies]

mutual
theorem errors_sub : ∀ (f g : Formula F), g ∈ forallErrors f → Inside g f ∧ g.IsForallOther
  | .atom _ _, g, h => by simp [forallErrors] at h
  | .neg _ _, g, h => by simp [forallErrors] at h
  | .case _ _, g, h => by simp [forallErrors] at h
  | .constraint _, g, h => by simp [forallErrors] at h
  | .range _ _ _ _, g, h => by simp [forallErrors] at h
  | .disj fs, g, h => by
    obtain ⟨f, hf, hi, ho⟩ := errors_sub_all fs g h
    exact ⟨.disj hf hi, ho⟩
  | .conj fs, g, h => by
    obtain ⟨f, hf, hi, ho⟩ := errors_sub_all fs g h
    exact ⟨.conj hf hi, ho⟩
  | .implies l r, g, h => by
    rw [forallErrors, List.mem_append] at h
    rcases h with h | h
    · exact ⟨.left (errors_sub l g h).1, (errors_sub l g h).2⟩
    · exact ⟨.right (errors_sub r g h).1, (errors_sub r g h).2⟩
  | .reduce left op args bindings b gv gb, g, h => by
    rw [forallErrors, List.mem_append, List.mem_append] at h
    rcases h with h | h | h
    · split at h
      · rename_i hc
        obtain ⟨rfl, hb⟩ := hc
        rw [List.mem_singleton] at h
        subst h
        exact ⟨.here _, _, _, _, _, _, _, rfl, (implication_iff b).mp hb⟩
      · simp at h
    · exact ⟨.body (errors_sub b g h).1, (errors_sub b g h).2⟩
    · obtain ⟨f, hf, hi, ho⟩ := errors_sub_all gb g h
      exact ⟨.where_ hf hi, ho⟩
  | .quant _ _ _ _ b _ gb, g, h => by
    rw [forallErrors, List.mem_append] at h
    rcases h with h | h
    · exact ⟨.qbody (errors_sub b g h).1, (errors_sub b g h).2⟩
    · obtain ⟨f, hf, hi, ho⟩ := errors_sub_all gb g h
      exact ⟨.qwhere hf hi, ho⟩
theorem errors_sub_all : ∀ (fs : List (Formula F)) (g : Formula F), g ∈ forallErrors.all fs → ∃ f ∈ fs, Inside g f ∧ g.IsForallOther
  | [], g, h => by simp [forallErrors.all] at h
  | f :: fs, g, h => by
    rw [forallErrors.all, List.mem_append] at h
    rcases h with h | h
    · exact ⟨f, List.mem_cons_self, errors_sub f g h⟩
    · obtain ⟨f', hf, hi⟩ := errors_sub_all fs g h
      exact ⟨f', List.mem_cons_of_mem _ hf, hi⟩
end

theorem mem_errors_all {g f : Formula F} {fs : List (Formula F)} (hm : f ∈ fs) (h : g ∈ forallErrors f) : g ∈ forallErrors.all fs := by
  induction fs with
  | nil => simp at hm
  | cons a fs ih =>
    rw [forallErrors.all, List.mem_append]
    rcases List.mem_cons.mp hm with rfl | hm
    · exact .inl h
    · exact .inr (ih hm)

theorem mem_errors {g f : Formula F} (hi : Inside g f) (ho : g.IsForallOther) : g ∈ forallErrors f := by
  induction hi with
  | here =>
    obtain ⟨left, args, bindings, b, gv, gb, rfl, hb⟩ := ho
    simp [forallErrors, (implication_iff b).mpr hb]
  | disj hm _ ih | conj hm _ ih => exact mem_errors_all hm ih
  | left _ ih => exact List.mem_append_left _ ih
  | right _ ih => exact List.mem_append_right _ ih
  | body _ ih => exact List.mem_append_right _ (List.mem_append_left _ ih)
  | where_ hm _ ih => exact List.mem_append_right _ (List.mem_append_right _ (mem_errors_all hm ih))
  | qbody _ ih => exact List.mem_append_left _ ih
  | qwhere hm _ ih => exact List.mem_append_right _ (mem_errors_all hm ih)

/-! ### The operators that are looked up -/

theorem mem_reduceOps_all {op : String} {f : Formula F} {fs : List (Formula F)} (hm : f ∈ fs) (h : op ∈ reduceOps f) : op ∈ reduceOps.all fs := by
  induction fs with
  | nil => simp at hm
  | cons a fs ih =>
    rw [reduceOps.all, List.mem_append]
    rcases List.mem_cons.mp hm with rfl | hm
    · exact .inl h
    · exact .inr (ih hm)

theorem mem_reduceOps {g f : Formula F} (hi : Inside g f) {left op args bindings b gv gb} (hg : g = .reduce left op args bindings b gv gb) :
    op ∈ reduceOps f := by
  induction hi with
  | here => subst hg; simp [reduceOps]
  | disj hm _ ih | conj hm _ ih => exact mem_reduceOps_all hm ih
  | left _ ih => exact List.mem_append_left _ ih
  | right _ ih => exact List.mem_append_right _ ih
  | body _ ih => exact List.mem_cons_of_mem _ (List.mem_append_left _ ih)
  | where_ hm _ ih => exact List.mem_cons_of_mem _ (List.mem_append_right _ (mem_reduceOps_all hm ih))
  | qbody _ ih => exact List.mem_append_left _ ih
  | qwhere hm _ ih => exact List.mem_append_right _ (mem_reduceOps_all hm ih)

mutual
theorem reduceOps_no : ∀ f : Formula F, f.AllIn (fun g => ¬ g.IsForall) → "forall" ∉ reduceOps f
  | .atom _ _, _ => by simp [reduceOps]
  | .neg _ _, _ => by simp [reduceOps]
  | .case _ _, _ => by simp [reduceOps]
  | .constraint _, _ => by simp [reduceOps]
  | .range _ _ _ _, _ => by simp [reduceOps]
  | .disj fs, h => reduceOps_no_all fs h.2
  | .conj fs, h => reduceOps_no_all fs h.2
  | .implies l r, h => by
    rw [reduceOps, List.mem_append]
    exact fun hm => hm.elim (reduceOps_no l h.2.1) (reduceOps_no r h.2.2)
  | .reduce left op args bindings b gv gb, h => by
    rw [reduceOps, List.mem_cons, List.mem_append]
    rintro (hm | hm | hm)
    · exact h.1 ⟨_, _, _, _, _, _, by rw [← hm]⟩
    · exact reduceOps_no b h.2.1 hm
    · exact reduceOps_no_all gb h.2.2 hm
  | .quant n ng op bindings b gv gb, h => by
    rw [reduceOps, List.mem_append]
    exact fun hm => hm.elim (reduceOps_no b h.2.1) (reduceOps_no_all gb h.2.2)
theorem reduceOps_no_all : ∀ fs : List (Formula F), Formula.AllIn.all (fun g => ¬ g.IsForall) fs → "forall" ∉ reduceOps.all fs
  | [], _ => by simp [reduceOps.all]
  | f :: fs, h => by
    rw [reduceOps.all, List.mem_append]
    exact fun hm => hm.elim (reduceOps_no f h.1) (reduceOps_no_all fs h.2)
end

/-! ### The transformations -/

mutual
theorem negate_right : ∀ f f' : Formula F, f.negate = some f' → (f'.AllIn Formula.Right ↔ f.AllIn Formula.Right)
  | .atom _ _, f', h => by simp only [Formula.negate, Option.some.injEq] at h; subst h; simp [Formula.AllIn, Formula.Right]
  | .neg _ _, f', h => by simp only [Formula.negate, Option.some.injEq] at h; subst h; simp [Formula.AllIn, Formula.Right]
  | .case _ _, f', h => by simp [Formula.negate] at h
  | .constraint _, f', h => by simp [Formula.negate] at h
  | .range _ _ _ _, f', h => by simp [Formula.negate] at h
  | .reduce .., f', h => by simp [Formula.negate] at h
  | .quant .., f', h => by simp [Formula.negate] at h
  | .disj fs, f', h => by
    simp only [Formula.negate, Option.map_eq_some_iff] at h
    obtain ⟨fs', h, rfl⟩ := h
    simp only [Formula.AllIn, Formula.Right, true_and]
    exact negateAll_right fs fs' h
  | .conj fs, f', h => by
    simp only [Formula.negate, Option.map_eq_some_iff] at h
    obtain ⟨fs', h, rfl⟩ := h
    simp only [Formula.AllIn, Formula.Right, true_and]
    exact negateAll_right fs fs' h
  | .implies l r, f', h => by
    simp only [Formula.negate, Option.map_eq_some_iff] at h
    obtain ⟨r', h, rfl⟩ := h
    simp only [Formula.AllIn, Formula.AllIn.all, Formula.Right, true_and, and_true, negate_right r r' h]
theorem negateAll_right : ∀ fs fs' : List (Formula F), Formula.negate.negateAll fs = some fs' →
    (Formula.AllIn.all Formula.Right fs' ↔ Formula.AllIn.all Formula.Right fs)
  | [], fs', h => by simp only [Formula.negate.negateAll, Option.some.injEq] at h; subst h; rfl
  | f :: fs, fs', h => by
    simp only [Formula.negate.negateAll, Option.bind_eq_some_iff, Option.map_eq_some_iff] at h
    obtain ⟨f', hf, fs'', hfs, rfl⟩ := h
    simp only [Formula.AllIn.all, negate_right f f' hf, negateAll_right fs fs'' hfs]
end

mutual
theorem entityArg_atoms (v : Name) : ∀ (e : Entity F) (n : Nat) (f : Formula F), f ∈ (Entity.arg v e n).2.1 → ∃ p as, f = .atom p as
  | .expr e, n, f, h => by simp [Entity.arg] at h
  | .object c as, n, f, h => by
    simp only [Entity.arg, List.mem_append, List.mem_singleton] at h
    rcases h with h | h
    · exact entityArgs_atoms _ as _ f h
    · exact ⟨_, _, h⟩
theorem entityArgs_atoms (v : Name) : ∀ (es : List (Entity F)) (n : Nat) (f : Formula F), f ∈ (Entity.args v es n).2.1 → ∃ p as, f = .atom p as
  | [], n, f, h => by simp [Entity.args] at h
  | e :: es, n, f, h => by
    simp only [Entity.args, List.mem_append] at h
    rcases h with h | h
    · exact entityArg_atoms v e n f h
    · exact entityArgs_atoms v es _ f h
end

/-- A formula that the visitors are done with. -/
def Formula.Done : Formula F → Prop
  | .reduce left op _ _ b _ _ => op = "forall" → ¬ ((∃ v, left = [some v]) ∧ b.IsImplies)
  | .quant .. => False
  | _ => True

theorem visit_right (f f' : Formula F) (h : visit f = some f') : f'.Done ∧ (f'.AllIn Formula.Right ↔ f.AllIn Formula.Right) := by
  cases f with
  | atom p args | neg p args | constraint e | disj fs | conj fs =>
    simp only [visit, desugarCaseIs, desugarForallExists, desugarRange, transformForall, Option.bind_some, transformImplies, Option.some.injEq] at h
    subst h; exact ⟨trivial, Iff.rfl⟩
  | range x lo hi inc =>
    cases inc <;>
    · simp only [visit, desugarCaseIs, desugarForallExists, desugarRange, transformForall, Option.bind_some, transformImplies, Option.some.injEq] at h
      subst h; simp [Formula.Done, Formula.AllIn, Formula.Right]
  | case v e =>
    cases e with
    | expr e =>
      simp only [visit, desugarCaseIs, desugarForallExists, desugarRange, transformForall, Option.bind_some, transformImplies, Option.some.injEq] at h
      subst h; simp [Formula.Done, Formula.AllIn, Formula.Right]
    | object c as =>
      simp only [visit, desugarCaseIs, desugarForallExists, desugarRange, transformForall, Option.bind_some, transformImplies, Option.some.injEq] at h
      subst h
      refine ⟨trivial, ?_⟩
      simp only [Formula.AllIn, Formula.Right, true_and, iff_true, allIn_all, List.mem_append, List.mem_singleton]
      rintro g (hg | rfl)
      · obtain ⟨p, l, rfl⟩ := entityArgs_atoms v as 0 g hg
        simp [Formula.AllIn, Formula.Right]
      · simp [Formula.AllIn, Formula.Right]
  | implies l r =>
    simp only [visit, desugarCaseIs, desugarForallExists, desugarRange, transformForall, Option.bind_some, transformImplies,
      Option.map_eq_some_iff] at h
    obtain ⟨l', h, rfl⟩ := h
    refine ⟨trivial, ?_⟩
    simp only [Formula.AllIn, Formula.AllIn.all, Formula.Right, true_and, and_true, negate_right l l' h]
  | quant n ng op bindings b gv gb =>
    simp only [visit, desugarCaseIs, desugarForallExists, desugarRange, transformForall, Option.bind_some, transformImplies, Option.some.injEq] at h
    subst h
    refine ⟨trivial, ?_⟩
    simp [Formula.AllIn, Formula.AllIn.all, Formula.Right]
  | reduce left op args bindings b gv gb =>
    by_cases hc : op = "forall" ∧ (∃ v, left = [some v]) ∧ b.IsImplies
    · obtain ⟨rfl, ⟨v, rfl⟩, hb⟩ := hc
      cases b with
      | implies l r =>
        simp only [visit, desugarCaseIs, desugarForallExists, desugarRange, transformForall, Option.bind_eq_some_iff, Option.map_eq_some_iff] at h
        obtain ⟨_, ⟨r', hr, rfl⟩, h⟩ := h
        simp only [transformImplies, Option.some.injEq] at h
        subst h
        refine ⟨trivial, ?_⟩
        simp [Formula.AllIn, Formula.AllIn.all, Formula.Right, negate_right r r' hr, Formula.IsImplies, and_assoc]
      | _ => exact hb.elim
    · have : transformForall (.reduce left op args bindings b gv gb) = some (.reduce left op args bindings b gv gb) := by
        unfold transformForall
        split
        · rename_i heq
          simp only [Formula.reduce.injEq] at heq
          obtain ⟨rfl, rfl, _, _, rfl, _⟩ := heq
          exact (hc ⟨rfl, ⟨_, rfl⟩, trivial⟩).elim
        · rfl
      simp only [visit, desugarCaseIs, desugarForallExists, desugarRange, this, Option.bind_some, transformImplies, Option.some.injEq] at h
      subst h
      exact ⟨fun ho hh => hc ⟨ho, hh⟩, Iff.rfl⟩

theorem ok_bind {α β : Type} {a : Outcome α} {k : α → Outcome β} {b : β} (h : a.bind k = .ok b) : ∃ x, a = .ok x ∧ k x = .ok b := by
  cases a <;> simp [Outcome.bind] at h ⊢
  exact h

theorem walkList_right {w : Formula F → Outcome (Formula F)} {P Q : Formula F → Prop}
    (hw : ∀ f f', w f = .ok f' → (f'.AllIn P ↔ f.AllIn Q)) : ∀ fs fs' : List (Formula F), walkList w fs = .ok fs' →
    (Formula.AllIn.all P fs' ↔ Formula.AllIn.all Q fs)
  | [], fs', h => by simp only [walkList, Outcome.ok.injEq] at h; subst h; exact Iff.rfl
  | f :: fs, fs', h => by
    obtain ⟨f', hf, h⟩ := ok_bind h
    obtain ⟨fs'', hfs, h⟩ := ok_bind h
    simp only [Outcome.ok.injEq] at h
    subst h
    simp only [Formula.AllIn.all, hw f f' hf, walkList_right hw fs fs'' hfs]

/-- What the walk leaves has no `forall` exactly if all of them were right. -/
theorem walk_right : ∀ (n : Nat) (f f' : Formula F), walk n f = .ok f' →
    (f'.AllIn (fun g => ¬ g.IsForall) ↔ f.AllIn Formula.Right)
  | 0, f, f', h => by simp [walk] at h
  | n + 1, f, f', h => by
    have ih := walk_right n
    rw [walk] at h
    split at h
    · simp at h
    · rename_i v hv
      obtain ⟨hd, hr⟩ := visit_right f v hv
      rw [← hr]
      cases v with
      | atom p args | neg p args | constraint e | case x e | range x lo hi inc =>
        simp only [walkChildren, Outcome.ok.injEq] at h
        subst h; simp [Formula.AllIn, Formula.Right, Formula.IsForall]
      | disj fs | conj fs =>
        obtain ⟨fs', hfs, h⟩ := ok_bind h
        simp only [Outcome.ok.injEq] at h
        subst h
        exact and_congr (by simp [Formula.Right, Formula.IsForall]) (walkList_right ih fs fs' hfs)
      | implies l r =>
        obtain ⟨l', hl, h⟩ := ok_bind h
        obtain ⟨r', hr', h⟩ := ok_bind h
        simp only [Outcome.ok.injEq] at h
        subst h
        exact and_congr (by simp [Formula.Right, Formula.IsForall]) (and_congr (ih _ _ hl) (ih _ _ hr'))
      | quant => exact hd.elim
      | reduce left op args bindings b gv gb =>
        obtain ⟨b', hb, h⟩ := ok_bind h
        obtain ⟨g', hg, h⟩ := ok_bind h
        simp only [Outcome.ok.injEq] at h
        subst h
        simp only [Formula.AllIn, ih _ _ hb, walkList_right ih gb g' hg]
        refine and_congr ?_ Iff.rfl
        simp only [Formula.Right, Formula.Done] at hd ⊢
        constructor
        · intro hn ho
          exact (hn ⟨_, _, _, _, _, _, by rw [ho]⟩).elim
        · rintro hi ⟨_, _, _, _, _, _, heq⟩
          simp only [Formula.reduce.injEq] at heq
          exact hd heq.2.1 (hi heq.2.1)

end Scallop.Front
