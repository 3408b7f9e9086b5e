import Verif.Spec.Attr
import Mathlib.Tactic.Tauto

/-!
# Lemmas about attributes
-/

namespace Scallop.Attr

/-! ### Finding attributes -/

theorem findAttr_isSome (attrs : List Attribute) (n : String) : (findAttr attrs n).isSome = true ↔ ∃ a ∈ attrs, a.name = n := by
  simp [findAttr, List.find?_isSome]

theorem findAttr_eq (attrs : List Attribute) (n : String) (a : Attribute) :
    findAttr attrs n = some a ↔ ∃ l r, attrs = l ++ a :: r ∧ a.name = n ∧ ∀ b ∈ l, b.name ≠ n := by
  unfold findAttr
  rw [List.find?_eq_some_iff_append]
  constructor
  · rintro ⟨h1, l, r, h2, h3⟩
    exact ⟨l, r, h2, by simpa using h1, by simpa using h3⟩
  · rintro ⟨l, r, h2, h1, h3⟩
    exact ⟨by simpa using h1, l, r, h2, by simpa using h3⟩

theorem hasAdornment_iff (r : RelType) : r.hasAdornment = true ↔ ∃ x ∈ r.args, x ≠ none := by
  simp [RelType.hasAdornment, Option.isSome_iff_ne_none]

/-! ### Demands -/

/-- One step of the analysis of demands. -/
inductive Op where
  | attr (p : String) (a : Attribute)
  | disj (p : String)

def Op.step (st : DemandState) : Op → DemandState
  | .attr p a => st.attribute p a
  | .disj p => st.setDisjunctive p

def Op.of : Item → List Op
  | .types attrs rels => rels.flatMap (fun r => attrs.map (Op.attr r.pred))
  | .rule attrs (.atom p _) => attrs.map (Op.attr p)
  | .rule _ (.disj (a :: _)) => [.disj a.1]
  | _ => []

theorem visit_ops (st : DemandState) (it : Item) : st.visit it = (Op.of it).foldl Op.step st := by
  have h : ∀ (st : DemandState) p attrs, st.attributes p attrs = (attrs.map (Op.attr p)).foldl Op.step st := by
    intro st p attrs
    simp only [DemandState.attributes, List.foldl_map]
    rfl
  cases it with
  | types attrs rels =>
    simp only [DemandState.visit, Op.of, List.foldl_flatMap, h]
  | rule attrs hd =>
    cases hd with
    | atom p n => simp only [DemandState.visit, Op.of, h]
    | conj as => rfl
    | disj as => cases as <;> rfl
  | _ => rfl

theorem foldl_visit_ops (st : DemandState) (items : List Item) : items.foldl DemandState.visit st = (items.flatMap Op.of).foldl Op.step st := by
  rw [List.foldl_flatMap]
  congr 1
  funext st it
  exact visit_ops st it

theorem fail_errors (st : DemandState) (e : DemandErr) : (st.fail e).errors ≠ [] := by simp [DemandState.fail]

/-- A step without an error. -/
theorem step_ok {st : DemandState} {o : Op} (h : (o.step st).errors = []) :
    st.errors = [] ∧ match o with
      | .attr p a => p ∉ st.disjunctive ∧ (o.step st).disjunctive = st.disjunctive ∧
          ((a.name ≠ "demand" ∧ (o.step st).attrs = st.attrs) ∨
            ∃ s, a.IsDemand s ∧ validPattern s = true ∧ ((st.attrs.lookup p = some s ∧ (o.step st).attrs = st.attrs) ∨ (st.attrs.lookup p = none ∧ (o.step st).attrs = (p, s) :: st.attrs)))
      | .disj p => st.attrs.lookup p = none ∧ (o.step st).attrs = st.attrs ∧ (o.step st).disjunctive = p :: st.disjunctive := by
  cases o with
  | disj p =>
    simp only [Op.step, DemandState.setDisjunctive] at h ⊢
    split at h
    · exact absurd h (fail_errors _ _)
    · rename_i hn
      rw [if_neg hn]
      exact ⟨h, Option.not_isSome_iff_eq_none.1 hn, rfl, rfl⟩
  | attr p a =>
    simp only [Op.step, DemandState.attribute] at h ⊢
    have key : ∀ st : DemandState, (st.pattern p a).errors = [] → st.errors = [] ∧ (st.pattern p a).disjunctive = st.disjunctive ∧
        ((a.name ≠ "demand" ∧ (st.pattern p a).attrs = st.attrs) ∨
            ∃ s, a.IsDemand s ∧ validPattern s = true ∧ ((st.attrs.lookup p = some s ∧ (st.pattern p a).attrs = st.attrs) ∨ (st.attrs.lookup p = none ∧ (st.pattern p a).attrs = (p, s) :: st.attrs))) := by
      intro st h
      unfold DemandState.pattern at h ⊢
      by_cases hn : a.name = "demand"
      · rw [if_pos hn] at h ⊢
        split at h
        · rename_i s hs
          by_cases hv : validPattern s = true
          · rw [if_pos hv] at h
            simp only [if_pos hv] at h ⊢
            cases hl : st.attrs.lookup p with
            | none =>
              simp only [hl] at h ⊢
              exact ⟨h, trivial, .inr ⟨s, ⟨hn, hs⟩, hv, .inr ⟨trivial, rfl⟩⟩⟩
            | some s' =>
              simp only [hl] at h ⊢
              by_cases he : s' ≠ s
              · rw [if_pos he] at h; exact absurd h (fail_errors _ _)
              · rw [if_neg he] at h ⊢
                have he : s' = s := not_not.1 he
                subst he
                exact ⟨h, rfl, .inr ⟨s', ⟨hn, hs⟩, hv, .inl ⟨rfl, rfl⟩⟩⟩
          · rw [if_neg hv] at h; exact absurd h (fail_errors _ _)
        · exact absurd h (fail_errors _ _)
        · exact absurd h (fail_errors _ _)
      · rw [if_neg hn] at h ⊢
        exact ⟨h, rfl, .inl ⟨hn, rfl⟩⟩
    by_cases hd : p ∈ st.disjunctive
    · rw [if_pos hd] at h
      exact absurd (key _ h).1 (fail_errors _ _)
    · rw [if_neg hd] at h ⊢
      obtain ⟨h1, h2, h3⟩ := key _ h
      exact ⟨h1, hd, h2, h3⟩

theorem isDemand_inj {a : Attribute} {s s' : String} (h : a.IsDemand s) (h' : a.IsDemand s') : s = s' := by
  have := h.2.symm.trans h'.2
  simpa using this

theorem lookup_cons (p q s : String) (l : List (String × String)) : List.lookup p ((q, s) :: l) = if p = q then some s else List.lookup p l := by
  rw [List.lookup_cons]
  by_cases h : p = q
  · simp [h]
  · rw [if_neg h, beq_false_of_ne h]

/-- All steps without an error. -/
theorem steps_ok : ∀ (ops : List Op) (st : DemandState), (ops.foldl Op.step st).errors = [] →
    st.errors = [] ∧
    (∀ p s, (ops.foldl Op.step st).attrs.lookup p = some s ↔ st.attrs.lookup p = some s ∨ ∃ a, Op.attr p a ∈ ops ∧ a.IsDemand s) ∧
    (∀ p a, Op.attr p a ∈ ops → p ∉ st.disjunctive ∧ (a.name = "demand" → ∃ s, a.IsDemand s ∧ validPattern s = true)) ∧
    (∀ p, Op.disj p ∈ ops → (ops.foldl Op.step st).attrs.lookup p = none) := by
  intro ops
  induction ops with
  | nil => intro st h; exact ⟨h, by simp, by simp, by simp⟩
  | cons o ops ih =>
    intro st h
    rw [List.foldl_cons] at h ⊢
    obtain ⟨h1, h2, h3, h4⟩ := ih _ h
    obtain ⟨g1, g2⟩ := step_ok h1
    cases o with
    | disj q =>
      obtain ⟨k1, k2, k3⟩ := g2
      have none_of : ((ops.foldl Op.step ((Op.disj q).step st)).attrs.lookup q) = none := by
        cases hl : (ops.foldl Op.step ((Op.disj q).step st)).attrs.lookup q with
        | none => rfl
        | some s =>
          rcases (h2 q s).1 hl with hl | ⟨a, ha, -⟩
          · rw [k2, k1] at hl; cases hl
          · exact absurd (by rw [k3]; simp) (h3 q a ha).1
      refine ⟨g1, ?_, ?_, ?_⟩
      · intro p s
        rw [h2, k2]
        simp
      · intro p a ha
        rcases List.mem_cons.1 ha with ha | ha
        · cases ha
        · have := h3 p a ha
          rw [k3] at this
          exact ⟨fun hm => this.1 (List.mem_cons_of_mem _ hm), this.2⟩
      · intro p hp
        rcases List.mem_cons.1 hp with hp | hp
        · cases hp
          exact none_of
        · exact h4 p hp
    | attr q b =>
      obtain ⟨k1, k2, k3⟩ := g2
      refine ⟨g1, ?_, ?_, ?_⟩
      · intro p s
        rw [h2]
        simp only [List.mem_cons, Op.attr.injEq]
        rcases k3 with ⟨hn, k3⟩ | ⟨s', hs', hv, ⟨hl, k3⟩ | ⟨hl, k3⟩⟩
        · rw [k3]
          refine or_congr_right ⟨fun ⟨a, h, hd⟩ => ⟨a, .inr h, hd⟩, ?_⟩
          rintro ⟨a, ⟨rfl, rfl⟩ | h, hd⟩
          · exact absurd hd.1 hn
          · exact ⟨a, h, hd⟩
        · rw [k3]
          constructor
          · rintro (h | ⟨a, h, hd⟩)
            · exact .inl h
            · exact .inr ⟨a, .inr h, hd⟩
          · rintro (h | ⟨a, ⟨rfl, rfl⟩ | h, hd⟩)
            · exact .inl h
            · left; rw [hl, isDemand_inj hs' hd]
            · exact .inr ⟨a, h, hd⟩
        · rw [k3, lookup_cons]
          by_cases hpq : p = q
          · subst hpq
            rw [if_pos rfl]
            constructor
            · rintro (h | ⟨a, h, hd⟩)
              · exact .inr ⟨b, .inl ⟨rfl, rfl⟩, by cases h; exact hs'⟩
              · exact .inr ⟨a, .inr h, hd⟩
            · rintro (h | ⟨a, ⟨-, rfl⟩ | h, hd⟩)
              · rw [hl] at h; cases h
              · left; rw [isDemand_inj hs' hd]
              · exact .inr ⟨a, h, hd⟩
          · rw [if_neg hpq]
            refine or_congr_right ⟨fun ⟨a, h, hd⟩ => ⟨a, .inr h, hd⟩, ?_⟩
            rintro ⟨a, ⟨h, -⟩ | h, hd⟩
            · exact absurd h hpq
            · exact ⟨a, h, hd⟩
      · intro p a ha
        rcases List.mem_cons.1 ha with ha | ha
        · cases ha
          refine ⟨k1, fun hn => ?_⟩
          rcases k3 with ⟨h, -⟩ | ⟨s, hs, hv, -⟩
          · exact absurd hn h
          · exact ⟨s, hs, hv⟩
        · have := h3 p a ha
          rw [k2] at this
          exact this
      · intro p hp
        rcases List.mem_cons.1 hp with hp | hp
        · cases hp
        · exact h4 p hp

/-! ### Demands of the transformed items -/

theorem transform_mem (items : List Item) (it' : Item) : it' ∈ transform items ↔ ∃ it ∈ items, transformItem it = some it' ∨ it' ∈ newItems it := by
  simp only [transform, List.mem_append, List.mem_filterMap, List.mem_flatMap]
  constructor
  · rintro (⟨it, h, h'⟩ | ⟨it, h, h'⟩)
    · exact ⟨it, h, .inl h'⟩
    · exact ⟨it, h, .inr h'⟩
  · rintro ⟨it, h, h' | h'⟩
    · exact .inl ⟨it, h, h'⟩
    · exact .inr ⟨it, h, h'⟩

theorem new_no_attr {it it' : Item} (h : it' ∈ newItems it) : ∃ p n, it' = .rule [] (.atom p n) := by
  cases it with
  | rule attrs hd =>
    cases hd with
    | conj as =>
      simp only [newItems, List.mem_map] at h
      obtain ⟨a, -, rfl⟩ := h
      exact ⟨_, _, rfl⟩
    | _ => simp [newItems] at h
  | _ => simp [newItems] at h

theorem types_ops (attrs : List Attribute) (rels : List RelType) (p : String) (a : Attribute) : Op.attr p a ∈ Op.of (.types attrs rels) ↔ (∃ r ∈ rels, r.pred = p) ∧ a ∈ attrs := by
  simp only [Op.of, List.mem_flatMap, List.mem_map, Op.attr.injEq]
  constructor
  · rintro ⟨r, hr, b, hb, rfl, rfl⟩
    exact ⟨⟨r, hr, rfl⟩, hb⟩
  · rintro ⟨⟨r, hr, rfl⟩, ha⟩
    exact ⟨r, hr, a, ha, rfl, rfl⟩

theorem demandAttr_is (r : RelType) : (demandAttr r).IsDemand (String.ofList (r.args.map (fun a => if a = some .bound then 'b' else 'f'))) := ⟨rfl, rfl⟩

theorem demand_sound {it it' : Item} {p : String} {a : Attribute} {s : String} (h : transformItem it = some it') (hm : Op.attr p a ∈ Op.of it') (hd : a.IsDemand s) : Demands it p s := by
  cases it with
  | types attrs rels =>
    simp only [transformItem, Option.some.injEq] at h
    subst h
    unfold desugarTypes at hm
    split at hm
    · rw [types_ops] at hm
      obtain ⟨⟨r, hr, rfl⟩, ha⟩ := hm
      exact .attr (List.mem_map.2 ⟨r, hr, rfl⟩) ha hd
    · rename_i hno
      have hno' : ¬ ∃ a ∈ attrs, a.name = "demand" := fun h => hno ((findAttr_isSome _ _).2 h)
      split at hm
      · rw [types_ops] at hm
        obtain ⟨⟨r, hr, rfl⟩, ha⟩ := hm
        exact absurd ⟨a, ha, hd.1⟩ hno'
      · split at hm
        · rename_i r rs _
          split at hm
          · rename_i had
            rw [types_ops] at hm
            obtain ⟨⟨r', hr', rfl⟩, ha⟩ := hm
            rcases List.mem_append.1 ha with ha | ha
            · exact absurd ⟨a, ha, hd.1⟩ hno'
            · have hrs : rs = [] := by
                rename_i hlen _
                cases rs with
                | nil => rfl
                | cons x y => simp at hlen
              subst hrs
              rw [List.mem_singleton] at ha hr'
              subst ha hr'
              rw [isDemand_inj hd (demandAttr_is r')]
              exact .adorned hno' (by simp) ((hasAdornment_iff _).1 had)
          · rw [types_ops] at hm
            exact absurd ⟨a, hm.2, hd.1⟩ hno'
        · rw [types_ops] at hm
          exact absurd ⟨a, hm.2, hd.1⟩ hno'
  | set attrs q =>
    simp only [transformItem, Option.some.injEq] at h
    subst h
    simp [Op.of] at hm
  | fact attrs q n c =>
    simp only [transformItem, Option.some.injEq] at h
    subst h
    cases c
    · simp only [Bool.false_eq_true, if_false, Op.of, List.mem_map, Op.attr.injEq] at hm
      obtain ⟨b, hb, rfl, rfl⟩ := hm
      exact .attr (by simp [Item.preds]) hb hd
    · simp [Op.of] at hm
  | rule attrs hh =>
    cases hh with
    | atom q n =>
      simp only [transformItem, Option.some.injEq] at h
      subst h
      simp only [Op.of, List.mem_map, Op.attr.injEq] at hm
      obtain ⟨b, hb, rfl, rfl⟩ := hm
      exact .attr (by simp [Item.preds]) hb hd
    | conj as => simp [transformItem] at h
    | disj as =>
      simp only [transformItem, Option.some.injEq] at h
      subst h
      cases as <;> simp [Op.of] at hm
  | reduce attrs q o =>
    cases o with
    | none =>
      simp only [transformItem, Option.some.injEq] at h
      subst h
      simp [Op.of] at hm
    | some n =>
      simp only [transformItem, Option.some.injEq] at h
      subst h
      simp only [Op.of, List.mem_map, Op.attr.injEq] at hm
      obtain ⟨b, hb, rfl, rfl⟩ := hm
      exact .attr (by simp [Item.preds]) hb hd

theorem demand_complete {it : Item} {p s : String} (hs : Supported it) (h : Demands it p s) : ∃ it' a, transformItem it = some it' ∧ Op.attr p a ∈ Op.of it' ∧ a.IsDemand s := by
  cases h with
  | adorned hno hr had =>
    rename_i attrs rels r
    have hno' : ¬ (findAttr attrs "demand").isSome = true := fun h => hno ((findAttr_isSome _ _).1 h)
    rcases hs with hs | hs | hs
    · exact absurd hs hno
    · cases rels with
      | nil => simp at hr
      | cons x rels =>
        cases rels with
        | nil =>
          rw [List.mem_singleton] at hr
          subst hr
          refine ⟨.types (attrs ++ [demandAttr r]) [r], demandAttr r, ?_, ?_, demandAttr_is r⟩
          · simp only [transformItem, desugarTypes, if_neg hno']
            rw [if_neg (by simp), if_pos ((hasAdornment_iff r).2 had)]
          · rw [types_ops]; exact ⟨⟨r, by simp, rfl⟩, by simp⟩
        | cons y rels => simp at hs
    · obtain ⟨x, hx, hx'⟩ := had
      exact absurd (hs r hr x hx) hx'
  | attr hp ha hd =>
    rename_i a
    cases it with
    | types attrs rels =>
      obtain ⟨r, hr, rfl⟩ := List.mem_map.1 hp
      have hyes : (findAttr attrs "demand").isSome = true := (findAttr_isSome _ _).2 ⟨a, ha, hd.1⟩
      refine ⟨.types attrs rels, a, by simp [transformItem, desugarTypes, hyes], (types_ops _ _ _ _).2 ⟨⟨r, hr, rfl⟩, ha⟩, hd⟩
    | set attrs q => exact absurd ⟨a, ha, hd.1⟩ hs
    | fact attrs q n c =>
      rcases hs with rfl | hs
      · refine ⟨.rule attrs (.atom q n), a, rfl, ?_, hd⟩
        obtain rfl : p = q := by simpa [Item.preds] using hp
        exact List.mem_map.2 ⟨a, ha, rfl⟩
      · exact absurd ⟨a, ha, hd.1⟩ hs
    | rule attrs hh =>
      cases hh with
      | atom q n =>
        refine ⟨.rule attrs (.atom q n), a, rfl, ?_, hd⟩
        obtain rfl : p = q := by simpa [Item.preds] using hp
        exact List.mem_map.2 ⟨a, ha, rfl⟩
      | conj as => exact absurd ⟨a, ha, hd.1⟩ hs
      | disj as => exact absurd ⟨a, ha, hd.1⟩ hs
    | reduce attrs q o =>
      cases o with
      | none =>
        rcases hs with hs | hs
        · exact absurd rfl hs
        · exact absurd ⟨a, ha, hd.1⟩ hs
      | some n =>
        refine ⟨.rule attrs (.atom q n), a, rfl, ?_, hd⟩
        obtain rfl : p = q := by simpa [Item.preds] using hp
        exact List.mem_map.2 ⟨a, ha, rfl⟩

/-! ### Once -/

section Once
variable {α : Type}

theorem lookup_cons' (p q : String) (v : α) (l : List (String × α)) : List.lookup p ((q, v) :: l) = if p = q then some v else List.lookup p l := by
  rw [List.lookup_cons]
  by_cases h : p = q
  · simp [h]
  · rw [if_neg h, beq_false_of_ne h]

theorem declare_ok (v : α) : ∀ (ps : List String) (st : OnceState α), st.errors ≤ (st.declare v ps).errors ∧ ((st.declare v ps).errors = st.errors →
    (∀ p ∈ ps, st.attrs.lookup p = none) ∧ ps.Nodup ∧ ∀ p, (st.declare v ps).attrs.lookup p = if p ∈ ps then some v else st.attrs.lookup p) := by
  intro ps
  induction ps with
  | nil => intro st; simp [OnceState.declare]
  | cons q ps ih =>
    intro st
    simp only [OnceState.declare]
    split
    · refine ⟨by simp, fun h => ?_⟩
      simp at h
    · rename_i hq
      obtain ⟨h1, h2⟩ := ih { st with attrs := (q, v) :: st.attrs }
      refine ⟨h1, fun h => ?_⟩
      obtain ⟨k1, k2, k3⟩ := h2 h
      have hq' : q ∉ ps := by
        intro hm
        have := k1 q hm
        simp at this
      refine ⟨?_, List.nodup_cons.2 ⟨hq', k2⟩, ?_⟩
      · intro p hp
        rcases List.mem_cons.1 hp with rfl | hp
        · exact Option.not_isSome_iff_eq_none.1 hq
        · have := k1 p hp
          rw [lookup_cons'] at this
          split at this
          · cases this
          · exact this
      · intro p
        rw [k3, lookup_cons']
        by_cases h1 : p = q
        · subst h1; simp [hq']
        · by_cases h2 : p ∈ ps <;> simp [h1, h2]

theorem once_ok (name : String) (read : Attribute → Option α) : ∀ (es : List (List Attribute × List String)) (st : OnceState α),
    st.errors ≤ (es.foldl (fun st e => st.visit name read e.1 e.2) st).errors ∧ ((es.foldl (fun st e => st.visit name read e.1 e.2) st).errors = st.errors →
      (∀ p v, (es.foldl (fun st e => st.visit name read e.1 e.2) st).attrs.lookup p = some v ↔ st.attrs.lookup p = some v ∨ ∃ e ∈ es, p ∈ e.2 ∧ ∃ a, findAttr e.1 name = some a ∧ read a = some v) ∧
      (∀ e ∈ es, ∀ a, findAttr e.1 name = some a → (∃ v, read a = some v) ∧ e.2.Nodup ∧ ∀ p ∈ e.2, st.attrs.lookup p = none) ∧
      es.Pairwise (fun e e' => (∃ a, findAttr e.1 name = some a) → (∃ a, findAttr e'.1 name = some a) → ∀ p ∈ e.2, p ∉ e'.2)) := by
  intro es
  induction es with
  | nil => intro st; exact ⟨by simp, fun _ => ⟨by simp, by simp, .nil⟩⟩
  | cons e es ih =>
    intro st
    rw [List.foldl_cons]
    obtain ⟨h1, h2⟩ := ih (st.visit name read e.1 e.2)
    cases hf : findAttr e.1 name with
    | none =>
      have hv : st.visit name read e.1 e.2 = st := by simp [OnceState.visit, hf]
      rw [hv] at h1 h2 ⊢
      refine ⟨h1, fun h => ?_⟩
      obtain ⟨k1, k2, k3⟩ := h2 h
      refine ⟨?_, ?_, List.pairwise_cons.2 ⟨?_, k3⟩⟩
      · intro p v
        rw [k1]
        simp [hf]
      · intro e' he' a ha
        rcases List.mem_cons.1 he' with rfl | he'
        · rw [hf] at ha; cases ha
        · exact k2 e' he' a ha
      · rintro e' _ ⟨a, ha⟩
        rw [hf] at ha; cases ha
    | some a =>
      cases hr : read a with
      | none =>
        have hv : (st.visit name read e.1 e.2).errors = st.errors + 1 := by simp [OnceState.visit, hf, hr]
        rw [hv] at h1
        exact ⟨by omega, fun h => by omega⟩
      | some v =>
        have hv : st.visit name read e.1 e.2 = st.declare v e.2 := by simp [OnceState.visit, hf, hr]
        rw [hv] at h1 h2 ⊢
        obtain ⟨d1, d2⟩ := declare_ok v e.2 st
        refine ⟨Nat.le_trans d1 h1, fun h => ?_⟩
        obtain ⟨e1, e2, e3⟩ := d2 (by omega)
        obtain ⟨k1, k2, k3⟩ := h2 (by omega)
        refine ⟨?_, ?_, List.pairwise_cons.2 ⟨?_, k3⟩⟩
        · intro p w
          rw [k1, e3]
          simp only [List.mem_cons, exists_eq_or_imp, hf, Option.some.injEq, exists_eq_left', hr]
          by_cases hp : p ∈ e.2
          · simp [hp, e1 p hp]
          · simp [hp]
        · intro e' he' a' ha'
          rcases List.mem_cons.1 he' with rfl | he'
          · rw [hf] at ha'; cases ha'
            exact ⟨⟨v, hr⟩, e2, e1⟩
          · obtain ⟨q1, q2, q3⟩ := k2 e' he' a' ha'
            refine ⟨q1, q2, fun p hp => ?_⟩
            have := q3 p hp
            rw [e3] at this
            split at this
            · cases this
            · exact this
        · rintro e' he' - ⟨a', ha'⟩ p hp hp'
          have := (k2 e' he' a' ha').2.2 p hp'
          rw [e3, if_pos hp] at this
          cases this

end Once

/-! ### Goals -/

theorem goal_add (st : GoalState) (p : String) (n : Nat) : st.errors ≤ (st.add p n).errors ∧ ((st.add p n).errors = st.errors → n = 0 ∧ (∀ q, q ∈ (st.add p n).goals ↔ q ∈ st.goals ∨ q = p)) ∧
    (st.goals.Nodup → (st.add p n).goals.Nodup) := by
  unfold GoalState.add
  by_cases hn : n ≠ 0
  · rw [if_pos hn]; simp
  · rw [if_neg hn]
    have hn : n = 0 := not_not.1 hn
    by_cases hp : p ∈ st.goals
    · rw [if_pos hp]
      refine ⟨by simp, fun _ => ⟨hn, fun q => ⟨.inl, ?_⟩⟩, id⟩
      rintro (h | rfl)
      · exact h
      · exact hp
    · rw [if_neg hp]
      refine ⟨by simp, fun _ => ⟨hn, fun q => ?_⟩, fun h => List.nodup_cons.2 ⟨hp, h⟩⟩
      simp [or_comm]

theorem goal_adds : ∀ (l : List (String × Nat)) (st : GoalState), st.errors ≤ (l.foldl (fun st r => st.add r.1 r.2) st).errors ∧
    ((l.foldl (fun st r => st.add r.1 r.2) st).errors = st.errors → (∀ x ∈ l, x.2 = 0) ∧ ∀ q, q ∈ (l.foldl (fun st r => st.add r.1 r.2) st).goals ↔ q ∈ st.goals ∨ q ∈ l.map (·.1)) ∧
    (st.goals.Nodup → (l.foldl (fun st r => st.add r.1 r.2) st).goals.Nodup) := by
  intro l
  induction l with
  | nil => intro st; simp
  | cons x l ih =>
    intro st
    rw [List.foldl_cons]
    obtain ⟨h1, h2, h3⟩ := ih (st.add x.1 x.2)
    obtain ⟨g1, g2, g3⟩ := goal_add st x.1 x.2
    refine ⟨Nat.le_trans g1 h1, fun h => ?_, fun h => h3 (g3 h)⟩
    obtain ⟨k1, k2⟩ := h2 (by omega)
    obtain ⟨m1, m2⟩ := g2 (by omega)
    refine ⟨?_, fun q => ?_⟩
    · intro y hy
      rcases List.mem_cons.1 hy with rfl | hy
      · exact m1
      · exact k1 y hy
    · rw [k2, m2]
      simp [or_assoc]

/-- The relations, with arities, that an item makes goals; `none` for a head that cannot have a goal. -/
def goalsOf : Item → Option (List (String × Nat))
  | .types attrs rels => some (if (findAttr attrs "goal").isSome then rels.map (fun r => (r.pred, r.args.length)) else [])
  | .rule attrs (.atom p n) => some (if (findAttr attrs "goal").isSome then [(p, n)] else [])
  | .rule attrs _ => if (findAttr attrs "goal").isSome then none else some []
  | _ => some []

theorem goal_visit (st : GoalState) (it : Item) : st.visit it = match goalsOf it with
    | some l => l.foldl (fun st r => st.add r.1 r.2) st
    | none => { st with errors := st.errors + 1 } := by
  cases it with
  | types attrs rels =>
    simp only [GoalState.visit, goalsOf]
    split <;> simp [List.foldl_map]
  | rule attrs hd =>
    cases hd <;> simp only [GoalState.visit, goalsOf] <;> split <;> simp_all
  | _ => rfl

theorem goal_visits : ∀ (items : List Item) (st : GoalState), st.errors ≤ (items.foldl GoalState.visit st).errors ∧
    ((items.foldl GoalState.visit st).errors = st.errors →
      (∀ it ∈ items, ∃ l, goalsOf it = some l ∧ ∀ x ∈ l, x.2 = 0) ∧ ∀ q, q ∈ (items.foldl GoalState.visit st).goals ↔ q ∈ st.goals ∨ ∃ it ∈ items, ∃ l, goalsOf it = some l ∧ q ∈ l.map (·.1)) ∧
    (st.goals.Nodup → (items.foldl GoalState.visit st).goals.Nodup) := by
  intro items
  induction items with
  | nil => intro st; simp
  | cons it items ih =>
    intro st
    rw [List.foldl_cons]
    obtain ⟨h1, h2, h3⟩ := ih (st.visit it)
    have hv := goal_visit st it
    cases hg : goalsOf it with
    | none =>
      simp only [hg] at hv
      have e1 : (st.visit it).errors = st.errors + 1 := by rw [hv]
      have e2 : (st.visit it).goals = st.goals := by rw [hv]
      rw [e2] at h3
      exact ⟨by omega, fun h => by omega, h3⟩
    | some l =>
      simp only [hg] at hv
      obtain ⟨g1, g2, g3⟩ := goal_adds l st
      rw [← hv] at g1 g2 g3
      refine ⟨Nat.le_trans g1 h1, fun h => ?_, fun h => h3 (g3 h)⟩
      obtain ⟨k1, k2⟩ := h2 (by omega)
      obtain ⟨m1, m2⟩ := g2 (by omega)
      refine ⟨?_, fun q => ?_⟩
      · intro y hy
        rcases List.mem_cons.1 hy with rfl | hy
        · exact ⟨l, hg, m1⟩
        · exact k1 y hy
      · rw [k2, m2]
        simp only [List.mem_cons, exists_eq_or_imp, hg, Option.some.injEq, exists_eq_left', or_assoc]

/-! ### Hidden relations -/

theorem hidden_visits : ∀ (items : List Item) (st : List String) (p : String), p ∈ items.foldl visitHidden st ↔
    p ∈ st ∨ ∃ it ∈ items, (∀ attrs q o, it ≠ .reduce attrs q o) ∧ p ∈ it.preds ∧ it.Has "hidden" := by
  intro items
  induction items with
  | nil => intro st p; simp
  | cons it items ih =>
    intro st p
    rw [List.foldl_cons, ih]
    have key : p ∈ visitHidden st it ↔ p ∈ st ∨ ((∀ attrs q o, it ≠ .reduce attrs q o) ∧ p ∈ it.preds ∧ it.Has "hidden") := by
      cases it with
      | reduce attrs q o => simp [visitHidden]
      | types attrs rels =>
        by_cases h : (findAttr attrs "hidden").isSome
        · have h' := (findAttr_isSome _ _).1 h
          simp only [visitHidden, h, if_true, Item.preds, Item.Has, Item.attrs, List.mem_append]
          simp only [h', and_true, or_comm]; simp
        · have h' : ¬ _ := fun hh => h ((findAttr_isSome attrs "hidden").2 hh)
          simp only [visitHidden, Item.preds, Item.Has, Item.attrs, h', and_false, or_false, if_neg h]
      | set attrs q =>
        by_cases h : (findAttr attrs "hidden").isSome
        · have h' := (findAttr_isSome _ _).1 h
          simp only [visitHidden, h, if_true, Item.preds, Item.Has, Item.attrs, List.mem_cons]
          simp [h', or_comm]
        · have h' : ¬ _ := fun hh => h ((findAttr_isSome attrs "hidden").2 hh)
          simp only [visitHidden, Item.preds, Item.Has, Item.attrs, h', and_false, or_false, if_neg h]
      | fact attrs q n c =>
        by_cases h : (findAttr attrs "hidden").isSome
        · have h' := (findAttr_isSome _ _).1 h
          simp only [visitHidden, h, if_true, Item.preds, Item.Has, Item.attrs, List.mem_cons]
          simp [h', or_comm]
        · have h' : ¬ _ := fun hh => h ((findAttr_isSome attrs "hidden").2 hh)
          simp only [visitHidden, Item.preds, Item.Has, Item.attrs, h', and_false, or_false, if_neg h]
      | rule attrs hd =>
        have hp : (Item.rule attrs hd).preds = hd.preds := by cases hd <;> rfl
        by_cases h : (findAttr attrs "hidden").isSome
        · have h' := (findAttr_isSome _ _).1 h
          simp only [visitHidden, h, if_true, hp, Item.Has, Item.attrs, List.mem_append]
          simp only [h', and_true, or_comm]; simp
        · have h' : ¬ _ := fun hh => h ((findAttr_isSome attrs "hidden").2 hh)
          simp only [visitHidden, hp, Item.Has, Item.attrs, h', and_false, or_false, if_neg h]
    rw [key]
    simp only [List.mem_cons, exists_eq_or_imp, or_assoc]

end Scallop.Attr
