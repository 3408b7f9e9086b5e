import Verif.Spec.Context
import Verif.Proof.SortedIdem
import Verif.Proof.ExecRun

/-! # Databases and contexts: helper lemmas -/

namespace Scallop.Exec

open Scallop.Ram Scallop.Plan

variable {F T W I O : Type}

/-! ## The map of relations -/

theorem lookup_filter_ne {α : Type*} (l : List (String × α)) (r q : String) :
    (l.filter (fun p => decide (p.1 ≠ r))).lookup q = if q = r then none else l.lookup q := by
  induction l with
  | nil => simp
  | cons p l ih =>
    obtain ⟨k, a⟩ := p
    by_cases hk : k = r
    · subst hk
      simp only [ne_eq, not_true_eq_false, decide_false, List.filter_cons, Bool.false_eq_true, if_false]
      rw [show (List.filter (fun p : String × α => decide ¬p.1 = k) l).lookup q = _ from ih]
      by_cases hq : q = k
      · simp [hq]
      · have : (q == k) = false := by simpa using hq
        simp [hq, List.lookup_cons, this]
    · simp only [ne_eq, List.filter_cons, hk, not_false_eq_true, decide_true, if_true, List.lookup_cons]
      rw [show (List.filter (fun p : String × α => decide ¬p.1 = r) l).lookup q = _ from ih]
      by_cases hq : q = k
      · subst hq
        simp [hk]
      · have : (q == k) = false := by simpa using hq
        simp [this]

theorem Edb.get_put (e : Edb F T I) (r q : String) (x : ERel F T I) : (e.put r x).get q = if q = r then some x else e.get q := by
  unfold Edb.put Edb.get
  simp only [List.lookup_cons]
  by_cases h : q = r
  · simp [h]
  · have : (q == r) = false := by simpa using h
    rw [this]
    have := lookup_filter_ne e.rels r q
    simp only [h, if_false] at this ⊢
    exact this

theorem Edb.get_remove (e : Edb F T I) (r q : String) : (e.remove r).get q = if q = r then none else e.get q := lookup_filter_ne e.rels r q

variable [LinearOrder (Val F)]

/-- What internalizing does to the map. -/
theorem Edb.get_internalize {c : Prov T W} {b : Boundary F T I O} {e e' : Edb F T I} (h : e.internalize c b = some e') (q : String) :
    match e.get q with
    | none => e'.get q = none
    | some x => ∃ x', x.internalize c b = some x' ∧ e'.get q = some x' := by
  unfold Edb.internalize at h
  rw [Option.map_eq_some_iff] at h
  obtain ⟨rels, h, rfl⟩ := h
  unfold Edb.get
  simp only
  have : ∀ (l l' : List (String × ERel F T I)), l.mapM (fun (q : String × ERel F T I) => (q.2.internalize c b).map (fun x => (q.1, x))) = some l' →
      match l.lookup q with
      | none => l'.lookup q = none
      | some x => ∃ x', x.internalize c b = some x' ∧ l'.lookup q = some x' := by
    intro l
    induction l with
    | nil => intro l' h; simp at h; subst h; simp
    | cons p l ih =>
      intro l' h
      obtain ⟨k, x⟩ := p
      rw [List.mapM_cons] at h
      simp only [Option.bind_eq_bind, Option.bind_eq_some_iff, Option.map_eq_some_iff, Option.pure_def, Option.some.injEq] at h
      obtain ⟨_, ⟨x', hx, rfl⟩, l'', hl, rfl⟩ := h
      simp only [List.lookup_cons]
      by_cases hk : q = k
      · subst hk
        simp [hx]
      · have hb : (q == k) = false := by simpa using hk
        simp only [hb]
        exact ih _ hl
  exact this _ _ h

/-! ## What a relation holds -/

/-- The tuples a relation of the extensional database holds or is about to. -/
def ERel.Holds (b : Boundary F T I O) (x : ERel F T I) (t : Tup (Val F)) : Prop :=
  t ∈ tuples x.internal.elems ∨ ∃ f ∈ x.programFacts ++ x.dynamicInput ++ x.staticInput, b.intern f.2 = some t

/-- The database holds the facts, in sorted collections. -/
structure Held (b : Boundary F T I O) (e : Edb F T I) (G : Given F I) : Prop where
  sorted : ∀ r x, e.get r = some x → x.indexed = false ∧ ∃ l, x.internal = .sorted l ∧ Sorted l
  facts : ∀ r t, (∃ x, e.get r = some x ∧ x.Holds b t) ↔ G.tuples b r t
  keys : (e.rels.map Prod.fst).Nodup

omit [LinearOrder (Val F)] in
theorem keys_put {e : Edb F T I} (h : (e.rels.map Prod.fst).Nodup) (r : String) (x : ERel F T I) : ((e.put r x).rels.map Prod.fst).Nodup := by
  unfold Edb.put
  simp only [List.map_cons, List.nodup_cons, List.mem_map, List.mem_filter, decide_eq_true_eq]
  refine ⟨?_, h.sublist (List.filter_sublist.map _)⟩
  rintro ⟨p, ⟨_, hp⟩, rfl⟩
  exact hp rfl

theorem keys_internalize {c : Prov T W} {b : Boundary F T I O} {e e' : Edb F T I} (h : e.internalize c b = some e') : e'.rels.map Prod.fst = e.rels.map Prod.fst := by
  unfold Edb.internalize at h
  rw [Option.map_eq_some_iff] at h
  obtain ⟨rels, h, rfl⟩ := h
  have : ∀ (l l' : List (String × ERel F T I)), l.mapM (fun (q : String × ERel F T I) => (q.2.internalize c b).map (fun x => (q.1, x))) = some l' →
      l'.map Prod.fst = l.map Prod.fst := by
    intro l
    induction l with
    | nil => intro l' h; simp at h; subst h; rfl
    | cons p l ih =>
      intro l' h
      rw [List.mapM_cons] at h
      simp only [Option.bind_eq_bind, Option.bind_eq_some_iff, Option.map_eq_some_iff, Option.pure_def, Option.some.injEq] at h
      obtain ⟨_, ⟨x', hx, rfl⟩, l'', hl, rfl⟩ := h
      simp [ih _ hl]
  exact this _ _ h

omit [LinearOrder (Val F)] in
theorem get_of_mem {e : Edb F T I} (h : (e.rels.map Prod.fst).Nodup) {p : String × ERel F T I} (hp : p ∈ e.rels) : e.get p.1 = some p.2 := by
  unfold Edb.get
  have : ∀ (l : List (String × ERel F T I)), (l.map Prod.fst).Nodup → p ∈ l → l.lookup p.1 = some p.2 := by
    intro l
    induction l with
    | nil => intro _ h; cases h
    | cons q l ih =>
      intro hn hp
      simp only [List.map_cons, List.nodup_cons] at hn
      rw [List.lookup_cons]
      rcases List.mem_cons.mp hp with rfl | hp
      · simp
      · have : (p.1 == q.1) = false := by
          simp only [beq_eq_false_iff_ne, ne_eq]
          intro h
          exact hn.1 (h ▸ List.mem_map_of_mem hp)
        rw [this]
        exact ih hn.2 hp
  exact this _ h hp

omit [LinearOrder (Val F)] in
theorem mem_elems {b : Boundary F T I O} {fs : List (Fact F I)} {t : Tup (Val F)} :
    t ∈ tuples (ERel.elems b fs) ↔ ∃ f ∈ fs, b.intern f.2 = some t := by
  simp only [tuples, ERel.elems, Set.mem_setOf_eq, List.mem_filterMap, Option.map_eq_some_iff]
  constructor
  · rintro ⟨_, ⟨f, hf, t', ht, rfl⟩, rfl⟩
    exact ⟨f, hf, ht⟩
  · rintro ⟨f, hf, ht⟩
    exact ⟨_, ⟨f, hf, t, ht, rfl⟩, rfl⟩

omit [LinearOrder (Val F)] in
theorem tuples_append' (l l' : List (Elem (Tup (Val F)) T)) (t) : t ∈ tuples (l ++ l') ↔ t ∈ tuples l ∨ t ∈ tuples l' := by
  simp only [tuples, Set.mem_setOf_eq, List.mem_append]
  constructor
  · rintro ⟨e, h | h, rfl⟩
    · exact Or.inl ⟨e, h, rfl⟩
    · exact Or.inr ⟨e, h, rfl⟩
  · rintro (⟨e, h, rfl⟩ | ⟨e, h, rfl⟩)
    · exact ⟨e, Or.inl h, rfl⟩
    · exact ⟨e, Or.inr h, rfl⟩

theorem internalize_spec {c : Prov T W} {b : Boundary F T I O} {x x' : ERel F T I} (hx : x.indexed = false) (h : x.internalize c b = some x') :
    x'.indexed = false ∧ x'.internal = .sorted (fromVec c (ERel.elems b x.programFacts ++ ERel.elems b x.dynamicInput ++ ERel.elems b x.staticInput ++ x.internal.elems)) ∧
      x'.programFacts = x.programFacts ∧ x'.dynamicInput = [] ∧ x'.staticInput = [] := by
  unfold ERel.internalize Coll.make at h
  rw [hx] at h
  simp only [Bool.false_eq_true, if_false, Option.map_some, Option.some.injEq] at h
  subst h
  exact ⟨rfl, rfl, rfl, rfl, rfl⟩

theorem internalize_holds {c : Prov T W} {b : Boundary F T I O} {x x' : ERel F T I} (hx : x.indexed = false) (h : x.internalize c b = some x') (t) :
    (t ∈ tuples x'.internal.elems ↔ x.Holds b t) ∧ (x'.Holds b t ↔ x.Holds b t) := by
  obtain ⟨_, h2, h3, h4, h5⟩ := internalize_spec hx h
  have h1 : t ∈ tuples x'.internal.elems ↔ x.Holds b t := by
    rw [h2]
    simp only [Coll.elems, tuples_fromVec, tuples_append', mem_elems, ERel.Holds, List.mem_append]
    constructor
    · rintro (((⟨f, hf, ht⟩ | ⟨f, hf, ht⟩) | ⟨f, hf, ht⟩) | h)
      · exact Or.inr ⟨f, Or.inl (Or.inl hf), ht⟩
      · exact Or.inr ⟨f, Or.inl (Or.inr hf), ht⟩
      · exact Or.inr ⟨f, Or.inr hf, ht⟩
      · exact Or.inl h
    · rintro (h | ⟨f, (hf | hf) | hf, ht⟩)
      · exact Or.inr h
      · exact Or.inl (Or.inl (Or.inl ⟨f, hf, ht⟩))
      · exact Or.inl (Or.inl (Or.inr ⟨f, hf, ht⟩))
      · exact Or.inl (Or.inr ⟨f, hf, ht⟩)
  refine ⟨h1, ?_⟩
  rw [← h1]
  unfold ERel.Holds
  rw [h3, h4, h5]
  simp only [List.append_nil, or_iff_left_iff_imp]
  rintro ⟨f, hf, ht⟩
  rw [h1]
  exact Or.inr ⟨f, by simp [hf], ht⟩

theorem held_internalize {c : Prov T W} {b : Boundary F T I O} {e e' : Edb F T I} {G : Given F I} (hG : Held b e G) (h : e.internalize c b = some e') :
    Held b e' G ∧ edbFacts e'.colls = G.tuples b := by
  have hq := fun q => Edb.get_internalize h q
  have inv : ∀ q x', e'.get q = some x' → ∃ x, e.get q = some x ∧ x.internalize c b = some x' := by
    intro q x' hx'
    have := hq q
    cases hx : e.get q with
    | none => rw [hx] at this; simp [this] at hx'
    | some x =>
      rw [hx] at this
      obtain ⟨y, h1, h2⟩ := this
      rw [h2] at hx'
      cases hx'
      exact ⟨x, rfl, h1⟩
  have fwd : ∀ q x, e.get q = some x → ∃ x', x.internalize c b = some x' ∧ e'.get q = some x' := by
    intro q x hx
    have := hq q
    rwa [hx] at this
  refine ⟨⟨?_, ?_, keys_internalize h ▸ hG.keys⟩, ?_⟩
  · intro r x' hx'
    obtain ⟨x, hx, hi⟩ := inv r x' hx'
    obtain ⟨h1, h2, _⟩ := internalize_spec (hG.sorted r x hx).1 hi
    exact ⟨h1, _, h2, fromVec_sorted c _⟩
  · intro r t
    rw [← hG.facts r t]
    constructor
    · rintro ⟨x', hx', ht⟩
      obtain ⟨x, hx, hi⟩ := inv r x' hx'
      exact ⟨x, hx, (internalize_holds (hG.sorted r x hx).1 hi t).2.mp ht⟩
    · rintro ⟨x, hx, ht⟩
      obtain ⟨x', hi, hx'⟩ := fwd r x hx
      exact ⟨x', hx', (internalize_holds (hG.sorted r x hx).1 hi t).2.mpr ht⟩
  · funext r t
    apply propext
    rw [← hG.facts r t]
    unfold edbFacts Edb.colls
    simp only [Option.map_eq_some_iff]
    constructor
    · rintro ⟨_, ⟨x', hx', rfl⟩, ht⟩
      obtain ⟨x, hx, hi⟩ := inv r x' hx'
      exact ⟨x, hx, (internalize_holds (hG.sorted r x hx).1 hi t).1.mp ht⟩
    · rintro ⟨x, hx, ht⟩
      obtain ⟨x', hi, hx'⟩ := fwd r x hx
      exact ⟨_, ⟨x', hx', rfl⟩, (internalize_holds (hG.sorted r x hx).1 hi t).1.mpr ht⟩

/-! ## Additions -/

/-- Adding facts to one relation. -/
theorem held_put {b : Boundary F T I O} {e : Edb F T I} {G : Given F I} (hG : Held b e G) {r : String} {fs : List (Fact F I)} {x : ERel F T I}
    (hi : x.indexed = ((e.get r).getD (ERel.new false)).indexed) (hc : x.internal = ((e.get r).getD (ERel.new false)).internal)
    (hx : ∀ f, f ∈ x.programFacts ++ x.dynamicInput ++ x.staticInput ↔
      f ∈ ((e.get r).getD (ERel.new false)).programFacts ++ ((e.get r).getD (ERel.new false)).dynamicInput ++ ((e.get r).getD (ERel.new false)).staticInput ∨ f ∈ fs) :
    Held b (e.put r x) (G.add r fs) := by
  refine ⟨?_, ?_, keys_put hG.keys r x⟩
  · intro q y hy
    rw [Edb.get_put] at hy
    split at hy
    · cases hy
      rw [hi, hc]
      cases he : e.get r with
      | none => exact ⟨rfl, [], rfl, List.Pairwise.nil⟩
      | some z => exact hG.sorted r z he
    · exact hG.sorted q y hy
  · intro q t
    rw [Edb.get_put]
    by_cases hq : q = r
    · subst hq
      simp only [if_true, Option.some.injEq, exists_eq_left']
      have hold : (((e.get q).getD (ERel.new false)).Holds b t) ↔ G.tuples b q t := by
        rw [← hG.facts q t]
        cases he : e.get q with
        | none => simp [ERel.Holds, ERel.new, Coll.empty, Coll.elems, tuples]
        | some z => simp
      have : x.Holds b t ↔ ((e.get q).getD (ERel.new false)).Holds b t ∨ ∃ f ∈ fs, b.intern f.2 = some t := by
        unfold ERel.Holds
        rw [hc]
        constructor
        · rintro (h | ⟨f, hf, ht⟩)
          · exact Or.inl (Or.inl h)
          · rcases (hx f).mp hf with hf | hf
            · exact Or.inl (Or.inr ⟨f, hf, ht⟩)
            · exact Or.inr ⟨f, hf, ht⟩
        · rintro ((h | ⟨f, hf, ht⟩) | ⟨f, hf, ht⟩)
          · exact Or.inl h
          · exact Or.inr ⟨f, (hx f).mpr (Or.inl hf), ht⟩
          · exact Or.inr ⟨f, (hx f).mpr (Or.inr hf), ht⟩
      rw [this, hold]
      simp only [Given.tuples, Given.add, true_and]
      constructor
      · rintro (⟨f, h1, h2⟩ | ⟨f, h1, h2⟩)
        · exact ⟨f, Or.inl h1, h2⟩
        · exact ⟨f, Or.inr h1, h2⟩
      · rintro ⟨f, h1 | h1, h2⟩
        · exact Or.inl ⟨f, h1, h2⟩
        · exact Or.inr ⟨f, h1, h2⟩
    · simp only [hq, if_false]
      rw [hG.facts q t]
      simp [Given.tuples, Given.add, hq]

theorem held_congr {b : Boundary F T I O} {e : Edb F T I} {G H : Given F I} (hG : Held b e G) (h : ∀ r f, G r f ↔ H r f) : Held b e H := by
  have : G = H := by funext r f; exact propext (h r f)
  exact this ▸ hG

theorem held_addStatic {b : Boundary F T I O} {e e' : Edb F T I} {G : Given F I} (hG : Held b e G) {r fs} (h : e.addStatic r fs = some e') :
    Held b e' (G.add r fs) := by
  unfold Edb.addStatic at h
  split at h
  · cases h
    exact held_put hG rfl rfl (fun f => by simp [ERel.addStatic, or_assoc])
  · cases h

theorem held_addDynamic {b : Boundary F T I O} {e e' : Edb F T I} {G : Given F I} (hG : Held b e G) {r fs} (h : e.addDynamic r fs = some e') :
    Held b e' (G.add r fs) := by
  unfold Edb.addDynamic at h
  split at h
  · cases h
    exact held_put hG rfl rfl (fun f => by simp [ERel.addDynamic]; tauto)
  · cases h

theorem held_populateOne {b : Boundary F T I O} {P : Compiled F I} {e e' : Edb F T I} {G : Given F I} {r : String} {ok : Bool} (hG : Held b e G)
    (hr : (P.decl r).indexed = false) (h : Edb.populateOne P e r = (e', ok)) : Held b e' (if ok then G.add r (P.facts r) else G) := by
  unfold Edb.populateOne at h
  split at h
  · rename_i hn
    cases h
    refine held_congr hG (fun q f => ?_)
    have : P.facts r = [] := by simpa using hn
    simp [Given.add, this]
  · rw [hr] at h
    simp only at h
    split at h
    · cases h
      have := held_put (x := (e.get r).getD (ERel.new false)) (fs := []) hG rfl rfl (fun f => by simp)
      exact held_congr this (fun q f => by simp [Given.add])
    · cases h
      exact held_put hG rfl rfl (fun f => by simp; tauto)

theorem held_populate {b : Boundary F T I O} {P : Compiled F I} : ∀ (rs : List String) {e e' : Edb F T I} {G : Given F I} {ok : Bool}, Held b e G →
    (∀ r ∈ rs, (P.decl r).indexed = false) → Edb.populate P rs e = (e', ok) →
    ∃ G', G.le G' ∧ G'.le (fun q f => G q f ∨ (q ∈ rs ∧ f ∈ P.facts q)) ∧ Held b e' G' ∧ (ok = true → ∀ q f, q ∈ rs → f ∈ P.facts q → G' q f)
  | [], e, e', G, ok, hG, _, h => by
    cases h
    exact ⟨G, fun _ _ h => h, fun _ _ h => Or.inl h, hG, by simp⟩
  | r :: rs, e, e', G, ok, hG, hr, h => by
    unfold Edb.populate at h
    split at h
    · rename_i e1 h1
      have h2 := held_populateOne hG (hr r (List.mem_cons_self ..)) h1
      simp only [if_true] at h2
      obtain ⟨G', l1, l2, hh, hall⟩ := held_populate rs h2 (fun q hq => hr q (List.mem_cons_of_mem _ hq)) h
      refine ⟨G', fun q f hf => l1 q f (Or.inl hf), fun q f hf => ?_, hh, fun hok q f hq hf => ?_⟩
      · rcases l2 q f hf with (h | ⟨rfl, h⟩) | ⟨h, h'⟩
        · exact Or.inl h
        · exact Or.inr ⟨List.mem_cons_self .., h⟩
        · exact Or.inr ⟨List.mem_cons_of_mem _ h, h'⟩
      · rcases List.mem_cons.mp hq with rfl | hq
        · exact l1 q f (Or.inr ⟨rfl, hf⟩)
        · exact hall hok q f hq hf
    · rename_i e1 h1
      have h2 := held_populateOne hG (hr r (List.mem_cons_self ..)) h1
      simp only [Bool.false_eq_true, if_false] at h2
      cases h
      exact ⟨G, fun _ _ h => h, fun _ _ h => Or.inl h, h2, by simp⟩

/-! ## Tapping -/

theorem held_tap {b : Boundary F T I O} {P : Program F} : ∀ (rs : List String) {e : Edb F T I} {G : Given F I}, Held b e G → Held b (e.tap P rs) G
  | [], _, _, h => h
  | r :: rs, e, G, h => by
    unfold Edb.tap
    apply held_tap rs
    split
    · rename_i hc
      have hn : e.get r = none := by simp at hc; exact hc.2
      have := held_put (x := ERel.new false) (r := r) (fs := []) h (by rw [hn]; rfl) (by rw [hn]; rfl) (fun f => by rw [hn]; simp)
      exact held_congr this (fun q f => by simp [Given.add])
    · exact h

omit [LinearOrder (Val F)] in
theorem get_tap {P : Program F} : ∀ (rs : List String) (e : Edb F T I) (q : String),
    (e.tap P rs).get q = match e.get q with
      | some x => some x
      | none => if decide (q ∈ rs) && (P.decl q).immutable then some (ERel.new false) else none
  | [], e, q => by
    unfold Edb.tap
    cases e.get q <;> simp
  | r :: rs, e, q => by
    unfold Edb.tap
    rw [get_tap rs]
    by_cases hc : ((P.decl r).immutable && (e.get r).isNone) = true
    · rw [if_pos hc, Edb.get_put]
      simp only [Bool.and_eq_true, Option.isNone_iff_eq_none] at hc
      by_cases hq : q = r
      · subst hq
        simp [hc]
      · simp only [hq, if_false, List.mem_cons, false_or]
    · rw [if_neg hc]
      by_cases hq : q = r
      · subst hq
        cases hg : e.get q with
        | some x => rfl
        | none =>
          simp only [hg, Option.isNone_none, Bool.and_true] at hc
          simp [hc]
      · simp only [hq, List.mem_cons, false_or]

omit [LinearOrder (Val F)] in
theorem colls_tap (P : Program F) (e : Edb F T I) : (e.tap P P.relations).colls = tapAll P e.colls := by
  funext q
  unfold Edb.colls tapAll
  simp only
  rw [get_tap]
  cases hq : e.get q with
  | some x => simp
  | none =>
    simp only [Option.map_none]
    split <;> rfl

/-! ## Running -/

theorem strataResults_eq [LinearOrder W] (c : Prov T W) (R : Runtime F T) (P : Program F) (inc : Bool) (fuel : Nat) (edb idb : Db F T) :
    (Ctx.strataResults c R P inc fuel (tapAll P edb) idb).bind (fun db => .done (copyOutputs P (tapAll P edb) db)) = executeFrom c R P inc fuel edb idb := by
  unfold Ctx.strataResults executeFrom
  split <;> rfl

/-- What a run does to a context. -/
theorem execute_cases [LinearOrder W] {c : Prov T W} {R : Runtime F T} {b : Boundary F T I O} {fuel : Nat} {new : Option (Compiled F I)} {s s' : Ctx F T I O} {ok : Bool}
    (h : s.execute c R b fuel new = .done (s', ok)) :
    (ok = false ∧ ∃ e, s.edb.populate (new.getD s.program) (new.getD s.program).relations = (e, false) ∧ s'.edb = e ∧ s'.incremental = s.incremental) ∨
    (ok = true ∧ ∃ e e1 db, s.edb.populate (new.getD s.program) (new.getD s.program).relations = (e, true) ∧ e.internalize c b = some e1 ∧
      Ctx.strataResults c R (new.getD s.program).toProgram s.incremental fuel (e1.tap (new.getD s.program).toProgram (new.getD s.program).relations).colls
        (fun r => ((if new.isSome then fun _ => none else s.idb : String → Option (IRel F T O)) r).map IRel.internal) = .done db ∧
      s' = { s with
        program := new.getD s.program
        edb := if s.incremental then e1.tap (new.getD s.program).toProgram (new.getD s.program).relations
          else Ctx.popOutputs (new.getD s.program).toProgram db (new.getD s.program).relations (e1.tap (new.getD s.program).toProgram (new.getD s.program).relations)
        idb := fun r => match (if new.isSome then fun _ => none else s.idb : String → Option (IRel F T O)) r with
          | some x => some x
          | none => (copyOutputs (new.getD s.program).toProgram (e1.tap (new.getD s.program).toProgram (new.getD s.program).relations).colls db r).map IRel.fresh }) := by
  unfold Ctx.execute at h
  simp only at h
  split at h
  · rename_i e he
    simp only [Run.done.injEq, Prod.mk.injEq] at h
    obtain ⟨rfl, rfl⟩ := h
    exact Or.inl ⟨rfl, e, he, rfl, rfl⟩
  · rename_i e he
    cases h1 : e.internalize c b with
    | none => rw [h1] at h; simp [Run.ofOption, Run.bind] at h
    | some e1 =>
      rw [h1] at h
      simp only [Run.ofOption, Run.bind] at h
      split at h
      · cases h
      · cases h
      · rename_i db hdb
        simp only [Run.done.injEq, Prod.mk.injEq] at h
        obtain ⟨rfl, rfl⟩ := h
        exact Or.inr ⟨rfl, e, e1, db, he, h1, hdb, rfl⟩

omit [LinearOrder (Val F)] in
theorem recover_edb (b : Boundary F T I O) (s : Ctx F T I O) (r : String) : (s.recover b r).edb = s.edb := by
  unfold Ctx.recover
  split
  · rfl
  · split <;> rfl

omit [LinearOrder (Val F)] in
theorem addTyped_edb {s s' : Ctx F T I O} {type check r fs ok} (h : s.addTyped type check r fs = (s', ok)) :
    (ok = true → s.edb.addStatic r fs = some s'.edb) ∧ (ok = false → s'.edb = s.edb) := by
  have key : ∀ {s'} {ok}, s.addFacts r fs = (s', ok) → (ok = true → s.edb.addStatic r fs = some s'.edb) ∧ (ok = false → s'.edb = s.edb) := by
    intro s' ok h
    unfold Ctx.addFacts at h
    simp only at h
    split at h
    · rename_i e he
      cases h
      exact ⟨fun _ => he, by simp⟩
    · cases h
      refine ⟨by simp, fun _ => ?_⟩
      split <;> rfl
  unfold Ctx.addTyped at h
  split at h
  · split at h
    · split at h
      · exact key h
      · cases h; exact ⟨by simp, fun _ => rfl⟩
    · cases h; exact ⟨by simp, fun _ => rfl⟩
  · exact key h

omit [LinearOrder (Val F)] in
theorem given_add_le {G H : Given F I} (h : G.le H) (r fs) : (G.add r fs).le (H.add r fs) := fun q f hf => hf.elim (fun x => Or.inl (h q f x)) Or.inr

/-- After any history the database holds what has been given. -/
theorem reach_held [LinearOrder W] {c : Prov T W} {b : Boundary F T I O} {s : Ctx F T I O} {lo hi : Given F I} (h : Reach c b s lo hi) :
    ∃ G, lo.le G ∧ G.le hi ∧ Held b s.edb G := by
  have h0 : ∀ (tc : Bool) (ty : String → Option (Tup (Val F) → Bool)), Held b (⟨tc, ty, [], false⟩ : Edb F T I) Given.none := by
    intro tc ty
    exact ⟨by simp [Edb.get], by simp [Edb.get, Given.tuples, Given.none], List.nodup_nil⟩
  induction h with
  | new => exact ⟨.none, fun _ _ h => h, fun _ _ h => h, h0 _ _⟩
  | withProgram => exact ⟨.none, fun _ _ h => h, fun _ _ h => h, h0 _ _⟩
  | add type check r fs _ ha ih =>
    obtain ⟨G, l1, l2, hG⟩ := ih
    exact ⟨G.add r fs, given_add_le l1 r fs, given_add_le l2 r fs, held_addStatic hG ((addTyped_edb ha).1 rfl)⟩
  | refused type check r fs _ ha ih =>
    obtain ⟨G, l1, l2, hG⟩ := ih
    exact ⟨G, l1, l2, (addTyped_edb ha).2 rfl ▸ hG⟩
  | insert r fs _ ha ih =>
    obtain ⟨G, l1, l2, hG⟩ := ih
    exact ⟨G.add r fs, given_add_le l1 r fs, given_add_le l2 r fs, held_addDynamic hG ha⟩
  | read r _ ih =>
    obtain ⟨G, l1, l2, hG⟩ := ih
    refine ⟨G, l1, l2, ?_⟩
    unfold Ctx.read
    rw [recover_edb]
    exact hG
  | run R fuel new _ hinc hst hx ih =>
    obtain ⟨G, l1, l2, hG⟩ := ih
    rcases execute_cases hx with ⟨h, _⟩ | ⟨_, e, e1, db, h1, h2, _, rfl⟩
    · cases h
    · obtain ⟨G', m1, m2, hG', hall⟩ := held_populate _ hG hst h1
      refine ⟨G', fun q f hf => ?_, fun q f hf => ?_, ?_⟩
      · rcases hf with hf | ⟨hq, hf⟩
        · exact m1 q f (l1 q f hf)
        · exact hall rfl q f hq hf
      · rcases m2 q f hf with hf | hf
        · exact Or.inl (l2 q f hf)
        · exact Or.inr hf
      · simp only [hinc, if_true]
        exact held_tap _ (held_internalize hG' h2).1
  | failed R fuel new _ hst hx ih =>
    obtain ⟨G, l1, l2, hG⟩ := ih
    rcases execute_cases hx with ⟨_, e, h1, h2, _⟩ | ⟨h, _⟩
    · obtain ⟨G', m1, m2, hG', _⟩ := held_populate _ hG hst h1
      refine ⟨G', fun q f hf => m1 q f (l1 q f hf), fun q f hf => ?_, h2 ▸ hG'⟩
      rcases m2 q f hf with hf | hf
      · exact Or.inl (l2 q f hf)
      · exact Or.inr hf
    · cases h

/-- A run with a new program, after any history. -/
theorem run_spec [LinearOrder W] {c : Prov T W} {R : Runtime F T} {b : Boundary F T I O} {fuel : Nat} {P : Compiled F I} {s s' : Ctx F T I O} {lo hi : Given F I}
    (hs : Reach c b s lo hi) (hst : ∀ r ∈ P.relations, (P.decl r).indexed = false) (h : s.execute c R b fuel (some P) = .done (s', true)) :
    ∃ G edb db, (lo.program P).le G ∧ G.le (hi.program P) ∧ edbFacts edb = G.tuples b ∧ (∀ r a, edb r = some a → ∃ l, a = .sorted l ∧ Sorted l) ∧
      executeFrom c R P.toProgram s.incremental fuel edb (fun _ => none) = .done db ∧ ∀ r, s'.idb r = (db r).map IRel.fresh := by
  obtain ⟨G, l1, l2, hG⟩ := reach_held hs
  rcases execute_cases h with ⟨h, _⟩ | ⟨_, e, e1, db, h1, h2, h3, rfl⟩
  · cases h
  · simp only [Option.getD_some] at h1 h3
    obtain ⟨G', m1, m2, hG', hall⟩ := held_populate _ hG hst h1
    obtain ⟨hG1, hf⟩ := held_internalize hG' h2
    have e1 := strataResults_eq c R P.toProgram s.incremental fuel e1.colls (fun _ => none)
    rw [colls_tap] at h3
    simp only [Option.isSome_some, if_true, Option.map_none] at h3
    rw [h3] at e1
    refine ⟨G', _, _, fun q f hf => ?_, fun q f hf => ?_, hf, ?_, e1.symm, ?_⟩
    · rcases hf with hf | ⟨hq, hf⟩
      · exact m1 q f (l1 q f hf)
      · exact hall rfl q f hq hf
    · rcases m2 q f hf with hf | hf
      · exact Or.inl (l2 q f hf)
      · exact Or.inr hf
    · intro r a ha
      unfold Edb.colls at ha
      rw [Option.map_eq_some_iff] at ha
      obtain ⟨x, hx, rfl⟩ := ha
      exact (hG1.sorted r x hx).2
    · intro r
      simp [colls_tap]

/-! ## Reading -/

/-- What reading a result gives. -/
def IRel.answer (b : Boundary F T I O) (x : IRel F T O) : List (O × Tup (Val F)) := if x.recovered then x.facts else x.facts ++ IRel.shown b x.internal.elems

omit [LinearOrder (Val F)] in
theorem recover_answer (b : Boundary F T I O) (d : Bool) (x : IRel F T O) :
    (x.recover b d).recovered = true ∧ (x.recover b d).facts = x.answer b ∧ (x.recover b d).answer b = x.answer b := by
  have h : (x.recover b d).recovered = true ∧ (x.recover b d).facts = x.answer b := by
    unfold IRel.recover IRel.answer
    split_ifs with h1 h2
    · exact ⟨h1, rfl⟩
    · have : x.internal.elems = [] := by simpa using h2
      exact ⟨rfl, by simp [this, IRel.shown]⟩
    · exact ⟨rfl, rfl⟩
    · exact ⟨rfl, rfl⟩
  refine ⟨h.1, h.2, ?_⟩
  rw [← h.2, IRel.answer, h.1]
  rfl

omit [LinearOrder (Val F)] in
theorem recover_idb (b : Boundary F T I O) (s : Ctx F T I O) (q r : String) (x : IRel F T O) (h : s.idb r = some x) :
    ∃ x', (s.recover b q).idb r = some x' ∧ x'.answer b = x.answer b ∧ (q = r → x'.recovered = true ∧ x'.facts = x.answer b) := by
  unfold Ctx.recover
  by_cases hq : q = r
  · subst hq
    rw [h]
    have := recover_answer b (!s.retain) x
    exact ⟨x.recover b (!s.retain), by simp, this.2.2, fun _ => ⟨this.1, this.2.1⟩⟩
  · have hr : ¬ r = q := fun h => hq h.symm
    refine ⟨x, ?_, rfl, fun h => absurd h hq⟩
    split
    · simp [hr, h]
    · split
      · simp [hr, h]
      · exact h

omit [LinearOrder (Val F)] in
/-- Reading a result that is there, after reading others. -/
theorem read_spec (b : Boundary F T I O) : ∀ (qs : List String) (s : Ctx F T I O) (r : String) (x : IRel F T O), s.idb r = some x →
    ((s.readAll b qs).read b r).2 = some (x.answer b)
  | [], s, r, x, h => by
    obtain ⟨x', h1, h2, h3⟩ := recover_idb b s r r x h
    obtain ⟨h4, h5⟩ := h3 rfl
    unfold Ctx.readAll Ctx.read
    simp only
    rw [h1]
    simp [h4, h5]
  | q :: qs, s, r, x, h => by
    obtain ⟨x', h1, h2, _⟩ := recover_idb b s q r x h
    unfold Ctx.readAll
    rw [← h2]
    exact read_spec b qs _ r x' h1

omit [LinearOrder (Val F)] in
theorem readAll_edb (b : Boundary F T I O) : ∀ (qs : List String) (s : Ctx F T I O), (s.readAll b qs).edb = s.edb ∧ (s.readAll b qs).incremental = s.incremental
  | [], _ => ⟨rfl, rfl⟩
  | q :: qs, s => by
    have h := readAll_edb b qs (s.read b q).1
    unfold Ctx.readAll
    rw [h.1, h.2]
    refine ⟨recover_edb b s q, ?_⟩
    unfold Ctx.read Ctx.recover
    split
    · rfl
    · split <;> rfl

/-! ## Running again -/

/-- All facts have been made part of the collections. -/
def Settled (c : Prov T W) (b : Boundary F T I O) (e : Edb F T I) : Prop := ∀ q x, e.get q = some x →
  x.indexed = false ∧ x.dynamicInput = [] ∧ x.staticInput = [] ∧ ∃ v, x.internal = .sorted (fromVec c v) ∧ ∀ el ∈ ERel.elems b x.programFacts, el ∈ v

/-- The facts of the program are in the database. -/
def Populated (P : Compiled F I) (rs : List String) (e : Edb F T I) : Prop := ∀ r ∈ rs, P.facts r ≠ [] →
  ∃ x, e.get r = some x ∧ (P.facts r).length ≤ x.programFacts.length ∧ ∀ f ∈ P.facts r, f ∈ x.programFacts

theorem settled_internalize {c : Prov T W} {b : Boundary F T I O} {e e' : Edb F T I} {G : Given F I} (hG : Held b e G) (h : e.internalize c b = some e') :
    Settled c b e' := by
  intro q x' hx'
  have := Edb.get_internalize h q
  cases hx : e.get q with
  | none => rw [hx] at this; simp [this] at hx'
  | some x =>
    rw [hx] at this
    obtain ⟨y, h1, h2⟩ := this
    rw [h2] at hx'
    cases hx'
    obtain ⟨i1, i2, i3, i4, i5⟩ := internalize_spec (hG.sorted q x hx).1 h1
    refine ⟨i1, i4, i5, _, i2, fun el hel => ?_⟩
    rw [i3] at hel
    simp [hel]

theorem settled_tap {c : Prov T W} {b : Boundary F T I O} {e : Edb F T I} (P : Program F) (rs : List String) (h : Settled c b e) : Settled c b (e.tap P rs) := by
  intro q x hx
  rw [get_tap] at hx
  split at hx
  · rename_i y hy
    cases hx
    exact h q _ hy
  · split at hx
    · cases hx
      exact ⟨rfl, rfl, rfl, [], rfl, by simp [ERel.new, ERel.elems]⟩
    · cases hx

omit [LinearOrder (Val F)] in
theorem populateOne_get {P : Compiled F I} {e e' : Edb F T I} {r : String} (h : Edb.populateOne P e r = (e', true)) (q : String) :
    (∀ x, e.get q = some x → ∃ x', e'.get q = some x' ∧ ∃ l, x'.programFacts = x.programFacts ++ l) ∧
      (q = r → P.facts r ≠ [] → ∃ x', e'.get q = some x' ∧ (P.facts r).length ≤ x'.programFacts.length ∧ ∀ f ∈ P.facts r, f ∈ x'.programFacts) := by
  unfold Edb.populateOne at h
  split at h
  · rename_i hn
    cases h
    exact ⟨fun x hx => ⟨x, hx, [], by simp⟩, fun _ hf => absurd (by simpa using hn) hf⟩
  · simp only at h
    split at h
    · cases h
    · cases h
      rw [Edb.get_put]
      constructor
      · intro x hx
        by_cases hq : q = r
        · subst hq
          simp only [hx, if_true, Option.getD_some]
          exact ⟨_, rfl, _, rfl⟩
        · simp only [hq, if_false]
          exact ⟨x, hx, [], by simp⟩
      · intro hq _
        simp only [hq, if_true]
        refine ⟨_, rfl, by simp, fun f hf => by simp [hf]⟩

omit [LinearOrder (Val F)] in
theorem populate_get {P : Compiled F I} : ∀ (rs : List String) {e e' : Edb F T I}, Edb.populate P rs e = (e', true) →
    (∀ q x, e.get q = some x → ∃ x', e'.get q = some x' ∧ ∃ l, x'.programFacts = x.programFacts ++ l) ∧ Populated P rs e'
  | [], e, e', h => by
    cases h
    exact ⟨fun q x hx => ⟨x, hx, [], by simp⟩, by simp [Populated]⟩
  | r :: rs, e, e', h => by
    unfold Edb.populate at h
    split at h
    · rename_i e1 h1
      obtain ⟨i1, i2⟩ := populate_get rs h
      refine ⟨fun q x hx => ?_, fun q hq hf => ?_⟩
      · obtain ⟨x1, hx1, l, hl⟩ := (populateOne_get h1 q).1 x hx
        obtain ⟨x2, hx2, l', hl'⟩ := i1 q x1 hx1
        exact ⟨x2, hx2, l ++ l', by rw [hl', hl, List.append_assoc]⟩
      · rcases List.mem_cons.mp hq with rfl | hq
        · obtain ⟨x1, hx1, hl, hm⟩ := (populateOne_get h1 q).2 rfl hf
          obtain ⟨x2, hx2, l', hl'⟩ := i1 q x1 hx1
          refine ⟨x2, hx2, ?_, fun f hf => ?_⟩
          · rw [hl']; simp; omega
          · rw [hl']; simp [hm f hf]
        · exact i2 q hq hf
    · cases h

theorem populated_internalize {c : Prov T W} {b : Boundary F T I O} {P : Compiled F I} {rs : List String} {e e' : Edb F T I} {G : Given F I} (hG : Held b e G)
    (hp : Populated P rs e) (h : e.internalize c b = some e') : Populated P rs e' := by
  intro r hr hf
  obtain ⟨x, hx, hl, hm⟩ := hp r hr hf
  have := Edb.get_internalize h r
  rw [hx] at this
  obtain ⟨y, h1, h2⟩ := this
  have h3 := (internalize_spec (hG.sorted r x hx).1 h1).2.2.1
  exact ⟨y, h2, by rw [h3]; exact hl, by rw [h3]; exact hm⟩

omit [LinearOrder (Val F)] in
theorem populated_tap {P : Compiled F I} {rs rs' : List String} {e : Edb F T I} (hp : Populated P rs e) : Populated P rs (e.tap P.toProgram rs') := by
  intro r hr hf
  obtain ⟨x, hx, h⟩ := hp r hr hf
  exact ⟨x, by rw [get_tap, hx], h⟩

/-- Taking the facts of a program once more changes no collection. -/
theorem populate_again {c : Prov T W} {b : Boundary F T I O} {P : Compiled F I} : ∀ (rs : List String) {e : Edb F T I}, Settled c b e → Populated P rs e →
    ∃ e', Edb.populate P rs e = (e', true) ∧ Settled c b e' ∧ e'.colls = e.colls
  | [], e, hs, _ => ⟨e, rfl, hs, rfl⟩
  | r :: rs, e, hs, hp => by
    have one : ∃ e', Edb.populateOne P e r = (e', true) ∧ Settled c b e' ∧ e'.colls = e.colls := by
      unfold Edb.populateOne
      by_cases hf : (P.facts r).isEmpty = true
      · rw [if_pos hf]
        exact ⟨e, rfl, hs, rfl⟩
      · rw [if_neg hf]
        obtain ⟨x, hx, hl, hm⟩ := hp r (List.mem_cons_self ..) (by simpa using hf)
        simp only [hx, Option.getD_some]
        have : decide (x.programFacts.length < (P.facts r).length) = false := by simpa using hl
        rw [this, Bool.and_false, if_neg (by simp)]
        refine ⟨_, rfl, ?_, ?_⟩
        · intro q y hy
          rw [Edb.get_put] at hy
          split at hy
          · cases hy
            obtain ⟨s1, s2, s3, v, s4, s5⟩ := hs r x hx
            refine ⟨s1, s2, s3, v, s4, fun el hel => ?_⟩
            simp only [ERel.elems, List.filterMap_append, List.mem_append] at hel
            rcases hel with hel | hel
            · exact s5 el hel
            · apply s5
              simp only [ERel.elems, List.mem_filterMap] at hel ⊢
              obtain ⟨f, hf, he⟩ := hel
              exact ⟨f, hm f hf, he⟩
          · exact hs q y hy
        · funext q
          unfold Edb.colls
          rw [Edb.get_put]
          by_cases hq : q = r
          · subst hq
            simp [hx]
          · simp [hq]
    obtain ⟨e1, h1, s1, c1⟩ := one
    have hp1 : Populated P rs e1 := by
      intro q hq hf
      obtain ⟨x, hx, hl, hm⟩ := hp q (List.mem_cons_of_mem _ hq) hf
      obtain ⟨x', hx', l, hl'⟩ := (populateOne_get h1 q).1 x hx
      exact ⟨x', hx', by rw [hl']; simp; omega, fun f hf => by rw [hl']; simp [hm f hf]⟩
    obtain ⟨e2, h2, s2, c2⟩ := populate_again rs s1 hp1
    refine ⟨e2, ?_, s2, c2.trans c1⟩
    unfold Edb.populate
    rw [h1]
    exact h2

theorem mapM_some {α β : Type} (f : α → Option β) : ∀ (l : List α), (∀ a ∈ l, ∃ b, f a = some b) → ∃ l', l.mapM f = some l'
  | [], _ => ⟨[], rfl⟩
  | a :: l, h => by
    obtain ⟨b, hb⟩ := h a (List.mem_cons_self ..)
    obtain ⟨l', hl⟩ := mapM_some f l (fun x hx => h x (List.mem_cons_of_mem _ hx))
    exact ⟨b :: l', by simp [List.mapM_cons, hb, hl]⟩

theorem internalize_again {c : Prov T W} (hc : Idempotent c) {b : Boundary F T I O} {e : Edb F T I} (hs : Settled c b e) (hn : (e.rels.map Prod.fst).Nodup) :
    ∃ e', e.internalize c b = some e' ∧ e'.colls = e.colls := by
  have hx : ∀ q x, e.get q = some x → ∃ x', x.internalize c b = some x' ∧ x'.internal = x.internal := by
    intro q x hx
    obtain ⟨h1, h2, h3, v, h4, h5⟩ := hs q x hx
    unfold ERel.internalize Coll.make
    rw [h1]
    simp only [Bool.false_eq_true, if_false, Option.map_some]
    refine ⟨_, rfl, ?_⟩
    simp only
    rw [h2, h3, h4]
    congr 1
    simp only [ERel.elems, List.filterMap_nil, List.append_nil, Coll.elems]
    exact fromVec_again c hc.assoc hc.comm hc.idem v _ h5
  obtain ⟨l', hl⟩ := mapM_some (fun (q : String × ERel F T I) => (q.2.internalize c b).map (fun x => (q.1, x))) e.rels (by
    intro p hp
    obtain ⟨x', h, _⟩ := hx p.1 p.2 (get_of_mem hn hp)
    exact ⟨(p.1, x'), by simp [h]⟩)
  have he : e.internalize c b = some { e with rels := l', internalized := true } := by
    unfold Edb.internalize
    rw [hl]
    rfl
  refine ⟨_, he, ?_⟩
  funext q
  have hq := Edb.get_internalize he q
  unfold Edb.colls
  cases hg : e.get q with
  | none => rw [hg] at hq; simp only at hq; rw [hq]
  | some x =>
    rw [hg] at hq
    obtain ⟨x', h1, h2⟩ := hq
    obtain ⟨x'', h3, h4⟩ := hx q x hg
    rw [h1] at h3
    cases h3
    rw [h2]
    simp [h4]

omit [LinearOrder (Val F)] in
theorem tapAll_again (P : Program F) (edb : Db F T) : tapAll P (tapAll P edb) = tapAll P edb := by
  funext q
  unfold tapAll
  cases h : edb q with
  | some a => rfl
  | none => by_cases hb : (decide (q ∈ P.relations) && (P.decl q).immutable) = true <;> simp [hb]

/-- Running the same program again, after reading results. -/
theorem run_again [LinearOrder W] {c : Prov T W} (hc : Idempotent c) {R : Runtime F T} {b : Boundary F T I O} {fuel : Nat} {P : Compiled F I} {s s' : Ctx F T I O}
    {lo hi : Given F I} (hs : Reach c b s lo hi) (hinc : s.incremental = true) (hst : ∀ r ∈ P.relations, (P.decl r).indexed = false)
    (h : s.execute c R b fuel (some P) = .done (s', true)) (qs : List String) :
    ∃ s'', (s'.readAll b qs).execute c R b fuel (some P) = .done (s'', true) ∧ s''.idb = s'.idb ∧ s''.edb.colls = s'.edb.colls := by
  obtain ⟨G, _, _, hG⟩ := reach_held hs
  rcases execute_cases h with ⟨h, _⟩ | ⟨_, e, e1, db, h1, h2, h3, h4⟩
  · cases h
  simp only [Option.getD_some, Option.isSome_some, if_true, Option.map_none, hinc] at h1 h3 h4
  obtain ⟨G', _, _, hG', _⟩ := held_populate _ hG hst h1
  have hG1 := (held_internalize hG' h2).1
  have hG2 : Held b (e1.tap P.toProgram P.relations) G' := held_tap _ hG1
  have hset : Settled c b (e1.tap P.toProgram P.relations) := settled_tap _ _ (settled_internalize hG' h2)
  have hpop : Populated P P.relations (e1.tap P.toProgram P.relations) := populated_tap (populated_internalize hG' (populate_get _ h1).2 h2)
  obtain ⟨e2, p1, p2, p3⟩ := populate_again P.relations hset hpop
  obtain ⟨G2, _, _, hG3, _⟩ := held_populate _ hG2 hst p1
  obtain ⟨e3, i1, i2⟩ := internalize_again hc p2 hG3.keys
  have hcoll : (e3.tap P.toProgram P.relations).colls = (e1.tap P.toProgram P.relations).colls := by
    rw [colls_tap, i2, p3, colls_tap, tapAll_again]
  obtain ⟨r1, r2⟩ := readAll_edb b qs s'
  have hedb : (s'.readAll b qs).edb = e1.tap P.toProgram P.relations := by rw [r1, h4]
  have hi : (s'.readAll b qs).incremental = true := by rw [r2, h4]
  unfold Ctx.execute
  simp only [Option.getD_some, Option.isSome_some, if_true, Option.map_none]
  rw [hedb, p1]
  simp only [i1, Run.ofOption, Run.bind, hi, hcoll, h3, if_true]
  refine ⟨_, rfl, ?_, ?_⟩
  · rw [h4]
  · rw [h4]
    exact hcoll

omit [LinearOrder (Val F)] in
theorem read_value (b : Boundary F T I O) (s : Ctx F T I O) (r : String) :
    (s.read b r).2 = match s.idb r with
      | some x => some (x.answer b)
      | none => (s.edb.colls r).map (fun a => IRel.shown b a.elems) := by
  cases h : s.idb r with
  | some x => exact read_spec b [] s r x h
  | none =>
    unfold Ctx.read Ctx.recover Edb.colls
    simp only [h]
    cases s.edb.get r with
    | none => simp [h]
    | some x => simp

end Scallop.Exec
