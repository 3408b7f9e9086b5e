import Mathlib.Data.List.Nodup
import Mathlib.Data.List.TakeWhile
import Mathlib.Tactic.Tauto
import Verif.Spec.Warnings

/-!
# Lemmas on warnings and wildcards
-/

namespace Scallop.Warn

/-- The uses after walking items. -/
theorem foldl_visit (items : List Item) (s : State) :
    items.foldl State.visit s = ⟨(items.flatMap Item.uses).foldl insertUse s.used, s.declared ++ items.flatMap Item.declares⟩ := by
  induction items generalizing s with
  | nil => simp
  | cons i is ih => simp [ih, State.visit, List.append_assoc]

theorem insertUse_keys {l : List (String × Place)} (h : (l.map Prod.fst).Nodup) (u) : ((insertUse l u).map Prod.fst).Nodup := by
  unfold insertUse
  rw [List.map_append, List.nodup_append]
  refine ⟨h.sublist (List.Sublist.map _ List.filter_sublist), by simp, ?_⟩
  intro a ha b hb
  simp only [List.mem_map, List.mem_filter] at ha
  obtain ⟨v, ⟨-, hv⟩, rfl⟩ := ha
  simp at hb hv
  subst hb; exact hv

theorem foldl_insert_keys (us : List (String × Place)) {l : List (String × Place)} (h : (l.map Prod.fst).Nodup) :
    ((us.foldl insertUse l).map Prod.fst).Nodup := by
  induction us generalizing l with
  | nil => exact h
  | cons u us ih => exact ih (insertUse_keys h u)

/-- The entry of a key is the last one that was inserted. -/
theorem mem_foldl_insert (us : List (String × Place)) (l : List (String × Place)) (u : String × Place) :
    u ∈ us.foldl insertUse l ↔ (u ∈ l ∧ u.1 ∉ us.map Prod.fst) ∨ ∃ a b, us = a ++ u :: b ∧ u.1 ∉ b.map Prod.fst := by
  induction us generalizing l with
  | nil => simp
  | cons v us ih =>
    rw [List.foldl_cons, ih]
    simp only [insertUse, List.mem_append, List.mem_filter, List.map_cons, List.mem_cons, List.not_mem_nil, or_false, not_or]
    constructor
    · rintro (⟨(⟨h1, h2⟩ | rfl), h3⟩ | ⟨a, b, rfl, h⟩)
      · exact Or.inl ⟨h1, by simpa using h2, h3⟩
      · exact Or.inr ⟨[], us, rfl, h3⟩
      · exact Or.inr ⟨v :: a, b, rfl, h⟩
    · rintro (⟨h1, h2, h3⟩ | ⟨a, b, h, h'⟩)
      · exact Or.inl ⟨Or.inl ⟨h1, by simpa using h2⟩, h3⟩
      · cases a with
        | nil =>
          simp only [List.nil_append, List.cons.injEq] at h
          obtain ⟨rfl, rfl⟩ := h
          exact Or.inl ⟨Or.inr rfl, h'⟩
        | cons w a =>
          simp only [List.cons_append, List.cons.injEq] at h
          exact Or.inr ⟨a, b, h.2, h'⟩

/-- A state that has seen the uses `us` and the declarations `ds`. -/
def Seen (us : List (String × Place)) (ds : List String) (s : State) : Prop :=
  s.used = us.foldl insertUse [] ∧ ∀ r, r ∈ s.declared ↔ r ∈ ds

/-- The declarations of a list of parts. -/
def declaresOf (ps : List (List Item × Bool)) : List String := ps.flatMap (fun p => (transform p.1).flatMap Item.declares)

/-- What compiling a list of parts one after the other prints. -/
def stepParts : List (List Item × Bool) → State → Option State × List (String × Place)
  | [], s => (some s, [])
  | (items, ok) :: ps, s =>
    if ok then ((stepParts ps ((transform items).foldl State.visit s)).1,
      ((transform items).foldl State.visit s).warnings ++ (stepParts ps ((transform items).foldl State.visit s)).2)
    else (none, [])

theorem stepParts_append (a b : List (List Item × Bool)) (s : State) :
    stepParts (a ++ b) s = match stepParts a s with
      | (none, p) => (none, p)
      | (some s₁, p) => ((stepParts b s₁).1, p ++ (stepParts b s₁).2) := by
  induction a generalizing s with
  | nil => simp [stepParts]
  | cons p ps ih =>
    obtain ⟨items, ok⟩ := p
    cases ok with
    | false => simp [stepParts]
    | true =>
      simp only [List.cons_append, stepParts, if_true, ih]
      rcases stepParts ps ((transform items).foldl State.visit s) with ⟨_ | s₁, p⟩ <;> simp

mutual
theorem compile_parts : (src : Src) → (s : State) → src.compile s = stepParts src.parts s
  | .mk imports items ok, s => by
    rw [Src.compile, compileImports_parts imports s, Src.parts, stepParts_append]
    rcases stepParts (partsAll imports) s with ⟨_ | s₁, p⟩
    · simp
    · cases ok <;> simp [stepParts]
theorem compileImports_parts : (is : List Src) → (s : State) → compileImports is s = stepParts (partsAll is) s
  | [], s => by simp [compileImports, partsAll, stepParts]
  | i :: is, s => by
    rw [compileImports, compile_parts i s, partsAll, stepParts_append]
    rcases stepParts i.parts s with ⟨_ | s₁, p⟩
    · simp
    · simp [compileImports_parts is s₁]
end

theorem visit_seen {us ds s} (h : Seen us ds s) (items : List Item) (ok : Bool) :
    Seen (us ++ usesOf [(items, ok)]) (ds ++ declaresOf [(items, ok)]) ((transform items).foldl State.visit s) := by
  rw [foldl_visit]
  refine ⟨?_, fun r => ?_⟩
  · rw [h.1]; simp [usesOf, List.foldl_append]
  · simp only [List.mem_append, h.2 r, declaresOf, List.flatMap_cons, List.flatMap_nil, List.append_nil]

theorem stepParts_some (ps : List (List Item × Bool)) {us ds s} (h : Seen us ds s) :
    (ps.all Prod.snd = true → ∃ s', (stepParts ps s).1 = some s' ∧ Seen (us ++ usesOf ps) (ds ++ declaresOf ps) s') ∧
    (ps.all Prod.snd = false → (stepParts ps s).1 = none) := by
  induction ps generalizing us ds s with
  | nil => simpa [stepParts, usesOf, declaresOf] using h
  | cons p ps ih =>
    obtain ⟨items, ok⟩ := p
    cases ok with
    | false => simp [stepParts]
    | true =>
      have := ih (visit_seen h items true)
      simpa [stepParts, usesOf, declaresOf, List.append_assoc] using this

/-- The warnings of a state that has seen uses and declarations. -/
theorem mem_warnings {us ds s} (h : Seen us ds s) (u : String × Place) :
    u ∈ s.warnings ↔ (∃ a b, us = a ++ u :: b ∧ u.1 ∉ b.map Prod.fst) ∧ u.1 ∉ ds ∧ '#' ∉ u.1.toList := by
  unfold State.warnings
  rw [List.mem_filter, h.1, mem_foldl_insert]
  simp [← h.2]

theorem mem_printed (ps : List (List Item × Bool)) {us ds s} (h : Seen us ds s) (u : String × Place) :
    u ∈ (stepParts ps s).2 ↔ ∃ k < (ps.takeWhile Prod.snd).length,
      (∃ a b, us ++ usesOf (ps.take (k + 1)) = a ++ u :: b ∧ u.1 ∉ b.map Prod.fst) ∧ u.1 ∉ ds ++ declaresOf (ps.take (k + 1)) ∧ '#' ∉ u.1.toList := by
  induction ps generalizing us ds s with
  | nil => simp [stepParts]
  | cons p ps ih =>
    obtain ⟨items, ok⟩ := p
    cases ok with
    | false => simp [stepParts]
    | true =>
      have hs := visit_seen h items true
      simp only [stepParts, if_true, List.mem_append (s := State.warnings _), ih hs, mem_warnings hs]
      have e : ∀ k, usesOf (((items, true) :: ps).take (k + 1)) = usesOf [(items, true)] ++ usesOf (ps.take k) := by
        intro k; simp [usesOf]
      have e' : ∀ k, declaresOf (((items, true) :: ps).take (k + 1)) = declaresOf [(items, true)] ++ declaresOf (ps.take k) := by
        intro k; simp [declaresOf]
      have z : usesOf [] = [] := rfl
      have z' : declaresOf [] = [] := rfl
      constructor
      · rintro (h0 | ⟨k, hk, h1⟩)
        · refine ⟨0, by simp, ?_⟩
          rw [e 0, e' 0]; simpa [z, z'] using h0
        · refine ⟨k + 1, by simpa [List.takeWhile_cons] using hk, ?_⟩
          rw [e, e', ← List.append_assoc, ← List.append_assoc]; exact h1
      · rintro ⟨k, hk, h1⟩
        cases k with
        | zero => left; rw [e 0, e' 0] at h1; simpa [z, z'] using h1
        | succ k =>
          right
          refine ⟨k, by simpa [List.takeWhile_cons] using hk, ?_⟩
          rw [e, e', ← List.append_assoc, ← List.append_assoc] at h1; exact h1

theorem usesOf_append (a b) : usesOf (a ++ b) = usesOf a ++ usesOf b := by simp [usesOf]

theorem declaresOf_append (a b) : declaresOf (a ++ b) = declaresOf a ++ declaresOf b := by simp [declaresOf]

theorem seen_congr {us ds ds' s} (h : Seen us ds s) (e : ∀ r, r ∈ ds ↔ r ∈ ds') : Seen us ds' s := ⟨h.1, fun r => (h.2 r).trans (e r)⟩

theorem foldl_seen (es : List Event) {us ds s} (h : Seen us ds s) :
    Seen (us ++ usesOf (acceptedParts es)) (ds ++ registered es ++ declaresOf (acceptedParts es)) (es.foldl Event.step s) := by
  induction es generalizing us ds s with
  | nil => simpa [acceptedParts, registered, usesOf, declaresOf] using h
  | cons e es ih =>
    cases e with
    | register r =>
      have h' : Seen us (ds ++ [r]) (Event.step s (.register r)) :=
        ⟨h.1, fun q => by simp only [Event.step, List.mem_append, h.2 q]⟩
      have := ih h'
      simpa [acceptedParts, registered, List.append_assoc] using this
    | compile src =>
      obtain ⟨h1, h2⟩ := stepParts_some src.parts h
      rw [List.foldl_cons]
      cases hp : src.parts.all Prod.snd with
      | true =>
        obtain ⟨s', e1, e2⟩ := h1 hp
        have : Event.step s (.compile src) = s' := by simp [Event.step, compile_parts, e1]
        rw [this]
        have := ih e2
        simp only [acceptedParts, registered, hp, if_true, usesOf_append, declaresOf_append, List.append_assoc] at this ⊢
        refine seen_congr this (fun r => ?_)
        simp only [List.mem_append]; tauto
      | false =>
        have : Event.step s (.compile src) = s := by simp [Event.step, compile_parts, h2 hp]
        rw [this]
        simpa [acceptedParts, registered, hp] using ih h

theorem run_seen (registry : List String) (es : List Event) :
    Seen (usesOf (acceptedParts es)) (registry ++ registered es ++ declaresOf (acceptedParts es)) (run registry es) := by
  have := foldl_seen es (us := []) (ds := registry) (s := ⟨[], registry⟩) ⟨rfl, fun _ => Iff.rfl⟩
  simpa [run] using this

theorem exists_last {r : String} {us : List (String × Place)} :
    r ∈ us.map Prod.fst ↔ ∃ l a b, us = a ++ (r, l) :: b ∧ r ∉ b.map Prod.fst := by
  constructor
  · induction us with
    | nil => simp
    | cons u us ih =>
      intro h
      by_cases hu : r ∈ us.map Prod.fst
      · obtain ⟨l, a, b, rfl, h'⟩ := ih hu
        exact ⟨l, u :: a, b, rfl, h'⟩
      · rw [List.map_cons, List.mem_cons] at h
        rcases h with rfl | h
        · exact ⟨u.2, [], us, rfl, hu⟩
        · exact absurd h hu
  · rintro ⟨l, a, b, rfl, -⟩; simp

theorem mem_declares (items : List Item) (r : String) : r ∈ (transform items).flatMap Item.declares ↔ ∃ i ∈ items, i.Computes r := by
  simp only [transform, List.flatMap_append, List.mem_append, List.mem_flatMap, List.mem_map, exists_exists_and_eq_and]
  constructor
  · rintro (⟨i, hi, h⟩ | ⟨j, ⟨i, hi, hj⟩, h⟩)
    · refine ⟨i, hi, ?_⟩
      cases i <;> simp [Item.transformed, Item.declares, Item.Computes] at h ⊢ <;> first | exact h | exact h.symm
    · refine ⟨i, hi, ?_⟩
      cases i <;> simp [Item.added] at hj
      subst hj
      simpa [Item.declares, Item.Computes, eq_comm] using h
  · rintro ⟨i, hi, h⟩
    cases i with
    | queryAtom text q l =>
      right
      exact ⟨_, ⟨_, hi, by simp [Item.added]; rfl⟩, by simpa [Item.declares, Item.Computes, eq_comm] using h⟩
    | types rs => exact Or.inl ⟨_, hi, h⟩
    | fact q l => exact Or.inl ⟨_, hi, by simpa [Item.transformed, Item.declares, Item.Computes, eq_comm] using h⟩
    | set q => exact Or.inl ⟨_, hi, by simpa [Item.transformed, Item.declares, Item.Computes, eq_comm] using h⟩
    | rule hs as => exact Or.inl ⟨_, hi, h⟩
    | query q l => exact absurd h (by simp [Item.Computes])

/-- A relation is used by what the transformations leave if it is used by what was written, or is the relation of a query. -/
theorem mem_uses (items : List Item) (r : String) (hc : ∀ i ∈ items, ¬ i.Computes r) :
    r ∈ ((transform items).flatMap Item.uses).map Prod.fst ↔ ∃ i ∈ items, i.Uses r := by
  simp only [transform, List.flatMap_append, List.map_append, List.mem_append, List.mem_map, List.mem_flatMap, exists_exists_and_eq_and]
  constructor
  · rintro (⟨u, ⟨i, hi, h⟩, rfl⟩ | ⟨u, ⟨j, ⟨i, hi, hj⟩, h⟩, rfl⟩)
    · refine ⟨i, hi, ?_⟩
      cases i with
      | queryAtom text q l => exact absurd (hc _ hi) (by simp [Item.transformed, Item.uses] at h; simp [Item.Computes, h])
      | types rs => simp [Item.transformed, Item.uses] at h
      | set q => simp [Item.transformed, Item.uses] at h
      | fact q l => simp [Item.transformed, Item.uses] at h; simp [Item.Uses, h]
      | query q l => simp [Item.transformed, Item.uses] at h; simp [Item.Uses, h]
      | rule hs as =>
        simp only [Item.transformed, Item.uses, List.mem_append] at h
        exact h.imp (List.mem_map_of_mem) (List.mem_map_of_mem)
    · refine ⟨i, hi, ?_⟩
      cases i <;> simp [Item.added] at hj
      subst hj
      rename_i text q l
      simp [Item.uses] at h
      rcases h with rfl | rfl
      · exact absurd (hc _ hi) (by simp [Item.Computes])
      · simp [Item.Uses]
  · rintro ⟨i, hi, h⟩
    cases i with
    | types rs => exact absurd h (by simp [Item.Uses])
    | set q => exact absurd h (by simp [Item.Uses])
    | fact q l => exact Or.inl ⟨(q, l), ⟨_, hi, by simp [Item.transformed, Item.uses]⟩, h⟩
    | query q l => exact Or.inl ⟨(q, l), ⟨_, hi, by simp [Item.transformed, Item.uses]⟩, h⟩
    | queryAtom text q l =>
      exact Or.inr ⟨(q, .none), ⟨_, ⟨_, hi, by simp [Item.added]; rfl⟩, by simp [Item.uses]⟩, h⟩
    | rule hs as =>
      rcases h with h | h <;> obtain ⟨u, hu, rfl⟩ := List.mem_map.mp h
      · exact Or.inl ⟨u, ⟨_, hi, by simp [Item.transformed, Item.uses, hu]⟩, rfl⟩
      · exact Or.inl ⟨u, ⟨_, hi, by simp [Item.transformed, Item.uses, hu]⟩, rfl⟩

theorem mem_declaresOf (ps : List (List Item × Bool)) (r : String) : r ∈ declaresOf ps ↔ ∃ i ∈ itemsOf ps, i.Computes r := by
  induction ps with
  | nil => simp [declaresOf, itemsOf]
  | cons p ps ih =>
    have : declaresOf (p :: ps) = (transform p.1).flatMap Item.declares ++ declaresOf ps := rfl
    have e : itemsOf (p :: ps) = p.1 ++ itemsOf ps := rfl
    rw [this, e, List.mem_append, mem_declares, ih]
    simp only [List.mem_append, or_and_right, exists_or]

theorem mem_usesOf (ps : List (List Item × Bool)) (r : String) (hc : ∀ i ∈ itemsOf ps, ¬ i.Computes r) :
    r ∈ (usesOf ps).map Prod.fst ↔ ∃ i ∈ itemsOf ps, i.Uses r := by
  induction ps with
  | nil => simp [usesOf, itemsOf]
  | cons p ps ih =>
    have : usesOf (p :: ps) = (transform p.1).flatMap Item.uses ++ usesOf ps := rfl
    have e : itemsOf (p :: ps) = p.1 ++ itemsOf ps := rfl
    rw [e] at hc
    rw [this, e, List.map_append, List.mem_append, mem_uses _ _ (fun i hi => hc i (List.mem_append_left _ hi)),
      ih (fun i hi => hc i (List.mem_append_right _ hi))]
    simp only [List.mem_append, or_and_right, exists_or]

end Scallop.Warn

namespace Scallop.Front

variable {F : Type}

theorem check_nil (s : String) (e : FExpr F) : e.check s = [] ↔ e ≠ .wild := by
  cases e <;> simp [FExpr.check]

theorem wildErrorsAll_nil (es : List (FExpr F)) : FExpr.wildErrorsAll es = [] ↔ ∀ e ∈ es, e.wildErrors = [] := by
  induction es with
  | nil => simp [FExpr.wildErrorsAll]
  | cons e es ih => simp [FExpr.wildErrorsAll, ih]

/-- No operand of an operator or conditional in the expression is a wildcard. -/
def FExpr.Fine (e : FExpr F) : Prop := ∀ x, FExpr.In x e → ¬ x.OperandWild

mutual
theorem wildErrors_nil : (e : FExpr F) → (e.wildErrors = [] ↔ e.Fine)
  | .const c => by
    refine iff_of_true (by simp [FExpr.wildErrors]) (fun x hx => ?_)
    cases hx; simp [FExpr.OperandWild]
  | .var y => by
    refine iff_of_true (by simp [FExpr.wildErrors]) (fun x hx => ?_)
    cases hx; simp [FExpr.OperandWild]
  | .wild => by
    refine iff_of_true (by simp [FExpr.wildErrors]) (fun x hx => ?_)
    cases hx; simp [FExpr.OperandWild]
  | .bin op a b => by
    simp only [FExpr.wildErrors, List.append_eq_nil_iff, check_nil, wildErrors_nil a, wildErrors_nil b]
    constructor
    · rintro ⟨h1, h2, h3, h4⟩ x hx
      cases hx with
      | refl => simp [FExpr.OperandWild, h1, h2]
      | binl h => exact h3 x h
      | binr h => exact h4 x h
    · intro h
      have := h _ (.refl _)
      simp only [FExpr.OperandWild, not_or] at this
      exact ⟨this.1, this.2, fun x hx => h x (.binl hx), fun x hx => h x (.binr hx)⟩
  | .un op a => by
    simp only [FExpr.wildErrors, List.append_eq_nil_iff, check_nil, wildErrors_nil a]
    constructor
    · rintro ⟨h1, h3⟩ x hx
      cases hx with
      | refl => simp [FExpr.OperandWild, h1]
      | un h => exact h3 x h
    · intro h
      exact ⟨h _ (.refl _), fun x hx => h x (.un hx)⟩
  | .ite c t e => by
    simp only [FExpr.wildErrors, List.append_eq_nil_iff, check_nil, wildErrors_nil c, wildErrors_nil t, wildErrors_nil e]
    constructor
    · rintro ⟨h1, h2, h3, h4, h5, h6⟩ x hx
      cases hx with
      | refl => simp [FExpr.OperandWild, h1, h2, h3]
      | itec h => exact h4 x h
      | itet h => exact h5 x h
      | itef h => exact h6 x h
    · intro h
      have := h _ (.refl _)
      simp only [FExpr.OperandWild, not_or] at this
      exact ⟨this.1, this.2.1, this.2.2, fun x hx => h x (.itec hx), fun x hx => h x (.itet hx), fun x hx => h x (.itef hx)⟩
  | .call f args => by
    rw [FExpr.wildErrors, wildErrorsAll_fine args]
    constructor
    · intro h x hx
      cases hx with
      | refl => simp [FExpr.OperandWild]
      | call ha hx => exact h _ ha x hx
    · exact fun h a ha x hx => h x (.call ha hx)
  | .new f args => by
    rw [FExpr.wildErrors, wildErrorsAll_fine args]
    constructor
    · intro h x hx
      cases hx with
      | refl => simp [FExpr.OperandWild]
      | new ha hx => exact h _ ha x hx
    · exact fun h a ha x hx => h x (.new ha hx)
theorem wildErrorsAll_fine : (es : List (FExpr F)) → (FExpr.wildErrorsAll es = [] ↔ ∀ e ∈ es, e.Fine)
  | [] => by simp [FExpr.wildErrorsAll]
  | e :: es => by simp [FExpr.wildErrorsAll, wildErrors_nil e, wildErrorsAll_fine es]
end

mutual
theorem mem_entity_exprs (e : FExpr F) : (t : Entity F) → (e ∈ t.exprs ↔ t.Has e)
  | .expr x => by
    rw [Entity.exprs, List.mem_singleton]
    exact ⟨fun h => h ▸ .expr, fun h => by cases h; rfl⟩
  | .object g args => by
    rw [Entity.exprs, mem_entity_exprsAll e args]
    exact ⟨fun ⟨a, ha, h⟩ => .object ha h, fun h => by cases h with | object ha h => exact ⟨_, ha, h⟩⟩
theorem mem_entity_exprsAll (e : FExpr F) : (ts : List (Entity F)) → (e ∈ Entity.exprsAll ts ↔ ∃ t ∈ ts, t.Has e)
  | [] => by simp [Entity.exprsAll]
  | t :: ts => by simp [Entity.exprsAll, mem_entity_exprs e t, mem_entity_exprsAll e ts]
end

mutual
theorem mem_exprs (e : FExpr F) : (f : Formula F) → (e ∈ f.exprs ↔ f.Has e)
  | .atom p args => by
    rw [Formula.exprs]; exact ⟨.atom, fun h => by cases h; assumption⟩
  | .neg p args => by
    rw [Formula.exprs]; exact ⟨.neg, fun h => by cases h; assumption⟩
  | .case v t => by
    rw [Formula.exprs, mem_entity_exprs]; exact ⟨.case, fun h => by cases h; assumption⟩
  | .disj fs => by
    rw [Formula.exprs, mem_exprsAll e fs]
    exact ⟨fun ⟨a, ha, h⟩ => .disj ha h, fun h => by cases h with | disj ha h => exact ⟨_, ha, h⟩⟩
  | .conj fs => by
    rw [Formula.exprs, mem_exprsAll e fs]
    exact ⟨fun ⟨a, ha, h⟩ => .conj ha h, fun h => by cases h with | conj ha h => exact ⟨_, ha, h⟩⟩
  | .implies l r => by
    rw [Formula.exprs, List.mem_append, mem_exprs e l, mem_exprs e r]
    exact ⟨fun h => h.elim .premise .conclusion, fun h => by cases h with | premise h => exact .inl h | conclusion h => exact .inr h⟩
  | .constraint x => by
    rw [Formula.exprs, List.mem_singleton]
    exact ⟨fun h => h ▸ .constraint, fun h => by cases h; rfl⟩
  | .reduce l o a b body gv gb => by
    rw [Formula.exprs, List.mem_append, mem_exprs e body, mem_exprsAll e gb]
    exact ⟨fun h => h.elim .reduced (fun ⟨g, hg, h⟩ => .reduceWhere hg h),
      fun h => by cases h with | reduced h => exact .inl h | reduceWhere hg h => exact .inr ⟨_, hg, h⟩⟩
  | .quant n ng o b body gv gb => by
    rw [Formula.exprs, List.mem_append, mem_exprs e body, mem_exprsAll e gb]
    exact ⟨fun h => h.elim .quantified (fun ⟨g, hg, h⟩ => .quantWhere hg h),
      fun h => by cases h with | quantified h => exact .inl h | quantWhere hg h => exact .inr ⟨_, hg, h⟩⟩
  | .range x lo hi i => by
    simp only [Formula.exprs, List.mem_cons, List.not_mem_nil, or_false]
    exact ⟨fun h => h.elim (fun h => h ▸ .lower) (fun h => h ▸ .upper), fun h => by cases h with | lower => exact .inl rfl | upper => exact .inr rfl⟩
theorem mem_exprsAll (e : FExpr F) : (fs : List (Formula F)) → (e ∈ Formula.exprsAll fs ↔ ∃ f ∈ fs, f.Has e)
  | [] => by simp [Formula.exprsAll]
  | f :: fs => by simp [Formula.exprsAll, mem_exprs e f, mem_exprsAll e fs]
end

theorem mem_args (e : FExpr F) (h : FHead F) : e ∈ h.args ↔ h.Has e := by
  cases h <;> simp [FHead.args, FHead.Has]

end Scallop.Front
