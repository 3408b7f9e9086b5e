import Verif.Proof.Attr

/-!
# C108: attributes of declarations
-/

namespace Scallop.Attr

theorem analyse_some {arity : String → Option Nat} {items : List Item} {c : Compiled} (h : analyse arity items = some c) :
    (items.foldl visitScheduler ⟨[], 0⟩).errors = 0 ∧ (items.foldl visitStorage ⟨[], 0⟩).errors = 0 ∧ ((transform items).foldl GoalState.visit ⟨[], 0⟩).check.errors = 0 ∧
    (((transform items).foldl DemandState.visit ⟨[], [], []⟩).checkArity arity).errors = [] ∧
    c = ⟨fun p => ((transform items).foldl DemandState.visit ⟨[], [], []⟩).attrs.lookup p, fun p => (items.foldl visitScheduler ⟨[], 0⟩).attrs.lookup p,
      fun p => (items.foldl visitStorage ⟨[], 0⟩).attrs.lookup p, fun p => ((transform items).foldl GoalState.visit ⟨[], 0⟩).check.goals.contains p,
      fun p => (items.foldl visitHidden []).contains p⟩ := by
  simp only [analyse] at h
  split at h
  · rename_i hc
    exact ⟨hc.1, hc.2.1, hc.2.2.1, hc.2.2.2, (Option.some.inj h).symm⟩
  · cases h

/-- What the analysis of demands finds in a program that is accepted. -/
theorem demand_result {arity : String → Option Nat} {items : List Item} {c : Compiled} (h : analyse arity items = some c) :
    (∀ p s, c.demand p = some s ↔ ∃ it' ∈ transform items, ∃ a, Op.attr p a ∈ Op.of it' ∧ a.IsDemand s) ∧
    (∀ p s, c.demand p = some s → validPattern s = true ∧ ∀ n, arity p = some n → s.length = n) ∧
    (∀ it' ∈ transform items, ∀ p, Op.disj p ∈ Op.of it' → c.demand p = none) := by
  obtain ⟨-, -, -, h4, rfl⟩ := analyse_some h
  simp only [DemandState.checkArity, List.append_eq_nil_iff] at h4
  obtain ⟨h4, h5⟩ := h4
  rw [foldl_visit_ops] at h4 h5 ⊢
  obtain ⟨-, k2, k3, k4⟩ := steps_ok _ _ h4
  have e1 : ∀ p s, List.lookup p (((transform items).flatMap Op.of).foldl Op.step ⟨[], [], []⟩).attrs = some s ↔ ∃ it' ∈ transform items, ∃ a, Op.attr p a ∈ Op.of it' ∧ a.IsDemand s := by
    intro p s
    rw [k2]
    simp only [List.lookup_nil, reduceCtorEq, false_or, List.mem_flatMap]
    constructor
    · rintro ⟨a, ⟨it', h, h'⟩, hd⟩
      exact ⟨it', h, a, h', hd⟩
    · rintro ⟨it', h, a, h', hd⟩
      exact ⟨a, ⟨it', h, h'⟩, hd⟩
  refine ⟨e1, ?_, ?_⟩
  · intro p s hs
    refine ⟨?_, ?_⟩
    · obtain ⟨it', h1, a, h2, h3⟩ := (e1 p s).1 hs
      obtain ⟨s', h6, h7⟩ := (k3 p a (List.mem_flatMap.2 ⟨it', h1, h2⟩)).2 h3.1
      rw [isDemand_inj h3 h6]
      exact h7
    · intro n hn
      rw [List.filterMap_eq_nil_iff] at h5
      have hm : (p, s) ∈ (((transform items).flatMap Op.of).foldl Op.step ⟨[], [], []⟩).attrs := by
        obtain ⟨l1, l2, he, -⟩ := List.lookup_eq_some_iff.1 hs
        rw [he]; simp
      have := h5 _ hm
      simp only [hn, ite_eq_right_iff, reduceCtorEq, imp_false, not_not] at this
      exact this
  · intro it' hi p hp
    exact k4 p (List.mem_flatMap.2 ⟨it', hi, hp⟩)

/-- **C108 (demands), what is proved.** If every demand of an accepted program is written where demands are read, then a relation has exactly the demand patterns that its declarations say, so that they agree. -/
theorem c108_demand_partial (arity : String → Option Nat) (items : List Item) (c : Compiled) (h : analyse arity items = some c) (hs : ∀ it ∈ items, Supported it) (p s : String) :
    c.demand p = some s ↔ ∃ it ∈ items, Demands it p s := by
  rw [(demand_result h).1]
  constructor
  · rintro ⟨it', hi, a, ha, hd⟩
    obtain ⟨it, hit, h1 | h1⟩ := (transform_mem _ _).1 hi
    · exact ⟨it, hit, demand_sound h1 ha hd⟩
    · obtain ⟨q, n, rfl⟩ := new_no_attr h1
      simp [Op.of] at ha
  · rintro ⟨it, hit, hd⟩
    obtain ⟨it', a, h1, h2, h3⟩ := demand_complete (hs it hit) hd
    exact ⟨it', (transform_mem _ _).2 ⟨it, hit, .inl h1⟩, a, h2, h3⟩

/-- **C108 (demands, soundness).** In every accepted program a demand comes from a declaration, consists of `b` and `f` and has the arity of the relation. -/
theorem c108_demand_sound (arity : String → Option Nat) (items : List Item) (c : Compiled) (h : analyse arity items = some c) (p s : String) (hd : c.demand p = some s) :
    (∃ it ∈ items, Demands it p s) ∧ (∀ x ∈ s.toList, x = 'b' ∨ x = 'f') ∧ ∀ n, arity p = some n → s.length = n := by
  obtain ⟨k1, k2, -⟩ := demand_result h
  refine ⟨?_, ?_, (k2 p s hd).2⟩
  · obtain ⟨it', hi, a, ha, hd⟩ := (k1 p s).1 hd
    obtain ⟨it, hit, h1 | h1⟩ := (transform_mem _ _).1 hi
    · exact ⟨it, hit, demand_sound h1 ha hd⟩
    · obtain ⟨q, n, rfl⟩ := new_no_attr h1
      simp [Op.of] at ha
  · have := (k2 p s hd).1
    simpa [validPattern] using this

/-- **C108 (disjunctive heads), what is proved.** In an accepted program the first relation of a disjunctive head has no demand. -/
theorem c108_disjunctive_partial (arity : String → Option Nat) (items : List Item) (c : Compiled) (h : analyse arity items = some c)
    (attrs : List Attribute) (p : String) (n : Nat) (rest : List (String × Nat)) (hr : Item.rule attrs (.disj ((p, n) :: rest)) ∈ items) : c.demand p = none := by
  refine (demand_result h).2.2 (.rule attrs (.disj ((p, n) :: rest))) ((transform_mem _ _).2 ⟨_, hr, .inl rfl⟩) p ?_
  simp [Op.of]

/-! ### Schedulers and storages -/

/-- What the scheduler analysis looks at. -/
def schedEntry : Item → List Attribute × List String
  | .types attrs rels => (attrs, rels.map (·.pred))
  | .rule attrs h => (attrs, h.preds)
  | _ => ([], [])

theorem visitScheduler_eq (st : OnceState Sched) (it : Item) : visitScheduler st it = st.visit "scheduler" readScheduler (schedEntry it).1 (schedEntry it).2 := by
  cases it <;> simp [visitScheduler, schedEntry, OnceState.visit, findAttr]

theorem visitStorage_eq (st : OnceState Storage) (it : Item) : visitStorage st it = st.visit "storage" readStorage it.attrs it.preds := by
  cases it with
  | rule attrs h => cases h <;> rfl
  | _ => rfl

theorem schedEntry_first (it : Item) (a : Attribute) : findAttr (schedEntry it).1 "scheduler" = some a ↔ SchedulerRead it ∧ it.First "scheduler" a := by
  cases it with
  | types attrs rels => simp only [schedEntry, SchedulerRead, true_and]; exact findAttr_eq _ _ _
  | rule attrs h => simp only [schedEntry, SchedulerRead, true_and]; exact findAttr_eq _ _ _
  | _ => simp [schedEntry, SchedulerRead, findAttr]

theorem schedEntry_preds {it : Item} (h : SchedulerRead it) : (schedEntry it).2 = it.preds := by
  cases it with
  | types attrs rels => rfl
  | rule attrs hd => cases hd <;> rfl
  | _ => exact absurd h id

/-- **C108 (schedulers), what is proved.** In an accepted program the scheduler of a relation is exactly the one of the first `@scheduler` attribute of a type declaration or rule of the relation, and there
is at most one such declaration. -/
theorem c108_scheduler_partial (arity : String → Option Nat) (items : List Item) (c : Compiled) (h : analyse arity items = some c) :
    (∀ p v, c.scheduler p = some v ↔ ∃ it ∈ items, SchedulerRead it ∧ p ∈ it.preds ∧ ∃ a, it.First "scheduler" a ∧ readScheduler a = some v) ∧
    items.Pairwise (fun it it' => SchedulerRead it → SchedulerRead it' → (∃ a, it.First "scheduler" a) → (∃ a, it'.First "scheduler" a) → ∀ p ∈ it.preds, p ∉ it'.preds) := by
  obtain ⟨h1, -, -, -, rfl⟩ := analyse_some h
  have he : ∀ st : OnceState Sched, items.foldl visitScheduler st = (items.map schedEntry).foldl (fun st e => st.visit "scheduler" readScheduler e.1 e.2) st := by
    intro st
    rw [List.foldl_map]
    congr 1
    funext st it
    exact visitScheduler_eq st it
  simp only [he] at h1 ⊢
  obtain ⟨k1, k2, k3⟩ := (once_ok "scheduler" readScheduler (items.map schedEntry) ⟨[], 0⟩).2 h1
  refine ⟨?_, ?_⟩
  · intro p v
    rw [k1]
    simp only [List.lookup_nil, reduceCtorEq, false_or, List.mem_map, exists_exists_and_eq_and]
    constructor
    · rintro ⟨it, hit, hp, a, ha, hv⟩
      obtain ⟨g1, g2⟩ := (schedEntry_first it a).1 ha
      exact ⟨it, hit, g1, schedEntry_preds g1 ▸ hp, a, g2, hv⟩
    · rintro ⟨it, hit, g1, hp, a, g2, hv⟩
      exact ⟨it, hit, (schedEntry_preds g1).symm ▸ hp, a, (schedEntry_first it a).2 ⟨g1, g2⟩, hv⟩
  · rw [List.pairwise_map] at k3
    refine k3.imp (fun {it it'} hk g1 g1' => ?_)
    rintro ⟨a, ha⟩ ⟨a', ha'⟩ p hp
    rw [← schedEntry_preds g1] at hp
    rw [← schedEntry_preds g1']
    exact hk ⟨a, (schedEntry_first it a).2 ⟨g1, ha⟩⟩ ⟨a', (schedEntry_first it' a').2 ⟨g1', ha'⟩⟩ p hp

/-- **C108 (storages).** In an accepted program the storage of a relation is exactly the one of the first `@storage` attribute of a declaration of the relation, whatever its kind, and there is at most one such
declaration. -/
theorem c108_storage (arity : String → Option Nat) (items : List Item) (c : Compiled) (h : analyse arity items = some c) :
    (∀ p v, c.storage p = some v ↔ ∃ it ∈ items, p ∈ it.preds ∧ ∃ a, it.First "storage" a ∧ readStorage a = some v) ∧
    items.Pairwise (fun it it' => (∃ a, it.First "storage" a) → (∃ a, it'.First "storage" a) → ∀ p ∈ it.preds, p ∉ it'.preds) := by
  obtain ⟨-, h1, -, -, rfl⟩ := analyse_some h
  have he : ∀ st : OnceState Storage, items.foldl visitStorage st = (items.map (fun it => (it.attrs, it.preds))).foldl (fun st e => st.visit "storage" readStorage e.1 e.2) st := by
    intro st
    rw [List.foldl_map]
    congr 1
    funext st it
    exact visitStorage_eq st it
  simp only [he] at h1 ⊢
  obtain ⟨k1, k2, k3⟩ := (once_ok "storage" readStorage (items.map (fun it => (it.attrs, it.preds))) ⟨[], 0⟩).2 h1
  refine ⟨?_, ?_⟩
  · intro p v
    rw [k1]
    simp only [List.lookup_nil, reduceCtorEq, false_or, List.mem_map, exists_exists_and_eq_and, findAttr_eq, Item.First]
  · rw [List.pairwise_map] at k3
    refine k3.imp (fun {it it'} hk => ?_)
    simpa only [findAttr_eq, Item.First] using hk

/-- A keyword argument has the value that it is first given, and those with other names do not count; positional arguments are the others, in order. -/
theorem c108_arguments (a : Attribute) :
    (∀ n v, a.kwArg n = some v ↔ ∃ pre post, a.args = pre ++ .kw n v :: post ∧ ∀ w, .kw n w ∉ pre) ∧
    (∀ v, v ∈ a.posArgs ↔ .pos v ∈ a.args) := by
  constructor
  · intro n v
    unfold Attribute.kwArg
    induction a.args with
    | nil => simp
    | cons x l ih =>
      rw [List.findSome?_cons]
      have skip : (∀ w, x ≠ .kw n w) → ((∃ pre post, l = pre ++ .kw n v :: post ∧ ∀ w, .kw n w ∉ pre) ↔
          ∃ pre post, x :: l = pre ++ .kw n v :: post ∧ ∀ w, .kw n w ∉ pre) := by
        intro hx
        constructor
        · rintro ⟨pre, post, rfl, h⟩
          refine ⟨x :: pre, post, rfl, fun w hw => ?_⟩
          rcases List.mem_cons.mp hw with hw | hw
          · exact hx w hw.symm
          · exact h w hw
        · rintro ⟨pre, post, h1, h2⟩
          cases pre with
          | nil => simp only [List.nil_append, List.cons.injEq] at h1; exact absurd h1.1 (hx v)
          | cons y pre =>
            simp only [List.cons_append, List.cons.injEq] at h1
            exact ⟨pre, post, h1.2, fun w hw => h2 w (by simp [hw])⟩
      cases x with
      | pos u => simpa using ih.trans (skip (by simp))
      | kw m u =>
        by_cases hm : m = n
        · subst hm
          simp only [if_true, Option.some.injEq]
          constructor
          · rintro rfl; exact ⟨[], l, rfl, by simp⟩
          · rintro ⟨pre, post, h1, h2⟩
            cases pre with
            | nil => simp only [List.nil_append, List.cons.injEq, Arg.kw.injEq, true_and] at h1; exact h1.1
            | cons y pre =>
              simp only [List.cons_append, List.cons.injEq] at h1
              exact absurd (h1.1 ▸ List.mem_cons_self) (h2 u)
        · simp only [hm, if_false]
          exact ih.trans (skip (by simp [hm]))
  · intro v
    unfold Attribute.posArgs
    simp only [List.mem_filterMap]
    constructor
    · rintro ⟨x, hx, h⟩
      cases x with
      | pos u => cases h; exact hx
      | kw m u => cases h
    · intro h; exact ⟨_, h, rfl⟩

/-- Arguments with other names before the one that counts. -/
example : (⟨"scheduler", [.pos (.str "beam"), .kw "size" (.int 7), .kw "beam_size" (.int 5), .kw "beam_size" (.int 6)]⟩ : Attribute).kwArg "beam_size" = some (.int 5) ∧
    (⟨"scheduler", [.pos (.str "beam"), .kw "size" (.int 7)]⟩ : Attribute).kwArg "beam_size" = none := by decide +kernel

/-- The values of the attributes: names of schedulers and storages. -/
theorem c108_values (a : Attribute) :
    (∀ v, readScheduler a = some v ↔ ∃ s rest, a.posArgs = .str s :: rest ∧
      ((s = "lfp" ∧ v = .lfp) ∨ (s = "dfs" ∧ v = .dfs) ∨ (s = "astar" ∧ v = .astar) ∨
        (s = "beam" ∧ ((∃ i, a.kwArg "beam_size" = some (.int i) ∧ v = .beam (i % 2 ^ 64).toNat) ∨ ((∀ i, a.kwArg "beam_size" ≠ some (.int i)) ∧ v = .beam 3))))) ∧
    (∀ v, readStorage a = some v ↔ ∃ s rest, a.posArgs = .str s :: rest ∧ ((s = "sorted" ∧ v = .sorted) ∨ (s = "indexed_vec" ∧ v = .indexedVec))) := by
  constructor
  · intro v
    unfold readScheduler
    cases hp : a.posArgs with
    | nil => simp
    | cons x rest =>
      cases x with
      | str s =>
        simp only [List.cons.injEq, Value.str.injEq]
        constructor
        · intro h
          refine ⟨s, rest, ⟨rfl, rfl⟩, ?_⟩
          split at h
          · exact .inl ⟨‹_›, (Option.some.inj h).symm⟩
          · split at h
            · exact .inr (.inl ⟨‹_›, (Option.some.inj h).symm⟩)
            · split at h
              · exact .inr (.inr (.inl ⟨‹_›, (Option.some.inj h).symm⟩))
              · split at h
                · refine .inr (.inr (.inr ⟨‹_›, ?_⟩))
                  split at h
                  · rename_i i hi
                    exact .inl ⟨i, hi, (Option.some.inj h).symm⟩
                  · rename_i hi
                    exact .inr ⟨fun i hh => hi i hh, (Option.some.inj h).symm⟩
                · cases h
        · rintro ⟨s', rest', ⟨rfl, rfl⟩, ⟨rfl, rfl⟩ | ⟨rfl, rfl⟩ | ⟨rfl, rfl⟩ | ⟨rfl, ⟨i, hi, rfl⟩ | ⟨hi, rfl⟩⟩⟩
          · simp
          · simp
          · simp
          · simp [hi]
          · simp only [String.reduceEq, if_false, if_true]
      | _ => simp
  · intro v
    unfold readStorage
    cases hp : a.posArgs with
    | nil => simp
    | cons x rest =>
      cases x with
      | str s =>
        simp only [List.cons.injEq, Value.str.injEq]
        constructor
        · intro h
          refine ⟨s, rest, ⟨rfl, rfl⟩, ?_⟩
          split at h
          · exact .inl ⟨‹_›, (Option.some.inj h).symm⟩
          · split at h
            · exact .inr ⟨‹_›, (Option.some.inj h).symm⟩
            · cases h
        · rintro ⟨s', rest', ⟨rfl, rfl⟩, ⟨rfl, rfl⟩ | ⟨rfl, rfl⟩⟩ <;> simp
      | _ => simp

/-! ### Goals and hidden relations -/

theorem goalsOf_transform (it : Item) (q : String) (n : Nat) : (∃ it' l, (transformItem it = some it' ∨ it' ∈ newItems it) ∧ goalsOf it' = some l ∧ (q, n) ∈ l) ↔ GoalRead it q n ∧ it.Has "goal" := by
  constructor
  · rintro ⟨it', l, h | h, hg, hm⟩
    · cases it with
      | types attrs rels =>
        simp only [transformItem, Option.some.injEq] at h
        subst h
        have hpush : ∀ r, (findAttr (attrs ++ [demandAttr r]) "goal").isSome = true → ∃ a ∈ attrs, a.name = "goal" := by
          intro r hr
          obtain ⟨a, ha, hn⟩ := (findAttr_isSome _ _).1 hr
          rcases List.mem_append.1 ha with ha | ha
          · exact ⟨a, ha, hn⟩
          · rw [List.mem_singleton] at ha
            subst ha
            simp [demandAttr] at hn
        unfold desugarTypes at hg
        split at hg
        · rename_i hdem
          simp only [goalsOf, Option.some.injEq] at hg
          subst hg
          split at hm
          · rename_i hgo
            obtain ⟨r, hr, he⟩ := List.mem_map.1 hm
            cases he
            exact ⟨.types hr (.inr (.inr ((findAttr_isSome _ _).1 hdem))), (findAttr_isSome _ _).1 hgo⟩
          · simp at hm
        · split at hg
          · simp only [goalsOf, Option.some.injEq] at hg
            subst hg
            split at hm
            · rename_i hgo
              obtain ⟨r, hr, he⟩ := List.mem_map.1 hm
              cases he
              rw [List.mem_filter] at hr
              refine ⟨.types hr.1 (.inr (.inl ?_)), (findAttr_isSome _ _).1 hgo⟩
              intro x hx
              by_contra hne
              have := (hasAdornment_iff r).2 ⟨x, hx, hne⟩
              simp [this] at hr
            · simp at hm
          · rename_i hlen
            have hlen' : rels.length ≤ 1 := by omega
            have fin : ∀ attrs', ((findAttr attrs' "goal").isSome = true → ∃ a ∈ attrs, a.name = "goal") → goalsOf (.types attrs' rels) = some l → GoalRead (.types attrs rels) q n ∧ (Item.types attrs rels).Has "goal" := by
              intro attrs' himp hg
              simp only [goalsOf, Option.some.injEq] at hg
              subst hg
              split at hm
              · rename_i hgo
                obtain ⟨r, hr, he⟩ := List.mem_map.1 hm
                cases he
                exact ⟨.types hr (.inl hlen'), himp hgo⟩
              · simp at hm
            split at hg
            · split at hg
              · exact fin _ (hpush _) hg
              · exact fin _ (findAttr_isSome _ _).1 hg
            · exact fin _ (findAttr_isSome _ _).1 hg
      | set attrs p =>
        simp only [transformItem, Option.some.injEq] at h
        subst h
        simp only [goalsOf, Option.some.injEq] at hg
        subst hg
        simp at hm
      | fact attrs p m c =>
        simp only [transformItem, Option.some.injEq] at h
        subst h
        cases c
        · simp only [Bool.false_eq_true, if_false, goalsOf, Option.some.injEq] at hg
          subst hg
          split at hm
          · rename_i hgo
            rw [List.mem_singleton] at hm
            cases hm
            exact ⟨.fact, (findAttr_isSome _ _).1 hgo⟩
          · simp at hm
        · simp only [if_true, goalsOf, Option.some.injEq] at hg
          subst hg
          simp at hm
      | rule attrs hd =>
        cases hd with
        | atom p m =>
          simp only [transformItem, Option.some.injEq] at h
          subst h
          simp only [goalsOf, Option.some.injEq] at hg
          subst hg
          split at hm
          · rename_i hgo
            rw [List.mem_singleton] at hm
            cases hm
            exact ⟨.rule, (findAttr_isSome _ _).1 hgo⟩
          · simp at hm
        | conj as => simp [transformItem] at h
        | disj as =>
          simp only [transformItem, Option.some.injEq] at h
          subst h
          simp only [goalsOf] at hg
          split at hg
          · cases hg
          · cases hg; simp at hm
      | reduce attrs p o =>
        cases o with
        | none =>
          simp only [transformItem, Option.some.injEq] at h
          subst h
          simp only [goalsOf, Option.some.injEq] at hg
          subst hg
          simp at hm
        | some m =>
          simp only [transformItem, Option.some.injEq] at h
          subst h
          simp only [goalsOf, Option.some.injEq] at hg
          subst hg
          split at hm
          · rename_i hgo
            rw [List.mem_singleton] at hm
            cases hm
            exact ⟨.reduce, (findAttr_isSome _ _).1 hgo⟩
          · simp at hm
    · obtain ⟨p, m, rfl⟩ := new_no_attr h
      simp only [goalsOf, findAttr, Option.some.injEq] at hg
      subst hg
      simp at hm
  · rintro ⟨hr, hh⟩
    cases hr with
    | types hmem hor =>
      rename_i attrs rels r
      have hgo : (findAttr attrs "goal").isSome = true := (findAttr_isSome _ _).2 hh
      have hgo' : (findAttr (attrs ++ [demandAttr r]) "goal").isSome = true := by
        obtain ⟨a, ha, hn⟩ := hh
        exact (findAttr_isSome _ _).2 ⟨a, by simp only [Item.attrs] at ha; simp [ha], hn⟩
      by_cases hdem : (findAttr attrs "demand").isSome = true
      · refine ⟨.types attrs rels, _, .inl (by simp [transformItem, desugarTypes, hdem]), by simp only [goalsOf, hgo, if_true]; rfl, List.mem_map.2 ⟨r, hmem, rfl⟩⟩
      · have hdem' : ¬ ∃ a ∈ attrs, a.name = "demand" := fun h => hdem ((findAttr_isSome _ _).2 h)
        by_cases hlen : rels.length > 1
        · have had : ∀ x ∈ r.args, x = none := by
            rcases hor with h | h | h
            · omega
            · exact h
            · exact absurd h hdem'
          refine ⟨.types attrs (rels.filter (fun r => !r.hasAdornment)), _, .inl (by simp only [transformItem, desugarTypes, if_neg hdem, if_pos hlen]),
            by simp only [goalsOf, hgo, if_true]; rfl, List.mem_map.2 ⟨r, List.mem_filter.2 ⟨hmem, ?_⟩, rfl⟩⟩
          have : r.hasAdornment = false := by
            cases hb : r.hasAdornment with
            | false => rfl
            | true =>
              obtain ⟨x, hx, hne⟩ := (hasAdornment_iff r).1 hb
              exact absurd (had x hx) hne
          simp [this]
        · cases rels with
          | nil => simp at hmem
          | cons r' rels =>
            cases rels with
            | cons y rels => simp at hlen
            | nil =>
              rw [List.mem_singleton] at hmem
              subst hmem
              by_cases had : r.hasAdornment = true
              · refine ⟨.types (attrs ++ [demandAttr r]) [r], _, .inl (by simp only [transformItem, desugarTypes, if_neg hdem, if_neg hlen, if_pos had]),
                  by simp only [goalsOf, hgo', if_true]; rfl, List.mem_map.2 ⟨r, by simp, rfl⟩⟩
              · refine ⟨.types attrs [r], _, .inl (by simp only [transformItem, desugarTypes, if_neg hdem, if_neg hlen, if_neg had]),
                  by simp only [goalsOf, hgo, if_true]; rfl, List.mem_map.2 ⟨r, by simp, rfl⟩⟩
    | rule =>
      rename_i attrs
      have hgo : (findAttr attrs "goal").isSome = true := (findAttr_isSome _ _).2 hh
      exact ⟨_, _, .inl rfl, by simp only [goalsOf, hgo, if_true]; rfl, by simp⟩
    | fact =>
      rename_i attrs
      have hgo : (findAttr attrs "goal").isSome = true := (findAttr_isSome _ _).2 hh
      exact ⟨_, _, .inl rfl, by simp only [Bool.false_eq_true, if_false, goalsOf, hgo, if_true]; rfl, by simp⟩
    | reduce =>
      rename_i attrs
      have hgo : (findAttr attrs "goal").isSome = true := (findAttr_isSome _ _).2 hh
      exact ⟨_, _, .inl rfl, by simp only [goalsOf, hgo, if_true]; rfl, by simp⟩

/-- **C108 (goals), what is proved.** An accepted program has at most one goal relation; it has no arguments, and it is exactly the relation marked `@goal` at a type declaration, a rule for one relation, a fact
with an argument to be computed or a reduce rule. -/
theorem c108_goal_partial (arity : String → Option Nat) (items : List Item) (c : Compiled) (h : analyse arity items = some c) :
    (∀ p q, c.goal p = true → c.goal q = true → p = q) ∧
    (∀ p, c.goal p = true ↔ ∃ it ∈ items, ∃ n, GoalRead it p n ∧ it.Has "goal") ∧
    (∀ it ∈ items, ∀ p n, GoalRead it p n → it.Has "goal" → n = 0) := by
  obtain ⟨-, -, h1, -, rfl⟩ := analyse_some h
  obtain ⟨g1, g2, g3⟩ := goal_visits (transform items) ⟨[], 0⟩
  have hlen : ¬ ((transform items).foldl GoalState.visit ⟨[], 0⟩).goals.length > 1 := by
    intro hl
    simp [GoalState.check, if_pos hl] at h1
  have hc : ((transform items).foldl GoalState.visit ⟨[], 0⟩).check = (transform items).foldl GoalState.visit ⟨[], 0⟩ := by simp only [GoalState.check, if_neg hlen]
  rw [hc] at h1 ⊢
  obtain ⟨k1, k2⟩ := g2 h1
  refine ⟨?_, ?_, ?_⟩
  · intro p q hp hq
    simp only [List.contains_iff_mem] at hp hq
    have : ((transform items).foldl GoalState.visit ⟨[], 0⟩).goals.length ≤ 1 := by omega
    revert hp hq this
    generalize ((transform items).foldl GoalState.visit ⟨[], 0⟩).goals = l
    cases l with
    | nil => simp
    | cons x l =>
      cases l with
      | nil => simp +contextual
      | cons y l => simp
  · intro p
    simp only [List.contains_iff_mem, k2, List.not_mem_nil, false_or]
    constructor
    · rintro ⟨it', hi, l, hl, hm⟩
      obtain ⟨⟨q, n⟩, hq, rfl⟩ := List.mem_map.1 hm
      obtain ⟨it, hit, hor⟩ := (transform_mem _ _).1 hi
      exact ⟨it, hit, n, (goalsOf_transform it q n).1 ⟨it', l, hor, hl, hq⟩⟩
    · rintro ⟨it, hit, n, hr⟩
      obtain ⟨it', l, hor, hl, hq⟩ := (goalsOf_transform it p n).2 hr
      exact ⟨it', (transform_mem _ _).2 ⟨it, hit, hor⟩, l, hl, List.mem_map.2 ⟨_, hq, rfl⟩⟩
  · intro it hit p n hr hh
    obtain ⟨it', l, hor, hl, hq⟩ := (goalsOf_transform it p n).2 ⟨hr, hh⟩
    obtain ⟨l', hl', hz⟩ := k1 it' ((transform_mem _ _).2 ⟨it, hit, hor⟩)
    rw [hl] at hl'
    cases hl'
    exact hz _ hq

/-- **C108 (hidden relations), what is proved.** A relation is hidden exactly if a declaration of it other than a reduce rule is marked `@hidden`. -/
theorem c108_hidden_partial (arity : String → Option Nat) (items : List Item) (c : Compiled) (h : analyse arity items = some c) (p : String) :
    c.hidden p = true ↔ ∃ it ∈ items, (∀ attrs q o, it ≠ .reduce attrs q o) ∧ p ∈ it.preds ∧ it.Has "hidden" := by
  obtain ⟨-, -, -, -, rfl⟩ := analyse_some h
  simp only [List.contains_iff_mem, hidden_visits, List.not_mem_nil, false_or]

/-! ### Examples and disagreements -/

def demandA (s : String) : Attribute := ⟨"demand", [.pos (.str s)]⟩

/-- A program with one attribute of each kind. -/
def sample : List Item :=
  [.types [] [⟨"fib", [some .bound, none]⟩], .rule [demandA "bf"] (.atom "fib" 2), .types [⟨"scheduler", [.pos (.str "beam"), .kw "beam_size" (.int 5)]⟩] [⟨"path", [none, none]⟩, ⟨"edge", [none, none]⟩],
   .set [⟨"storage", [.pos (.str "indexed_vec")]⟩] "edge", .rule [⟨"goal", []⟩] (.atom "found" 0), .fact [⟨"hidden", []⟩] "secret" 1 true]

/-- The example is accepted and supported, and means what it says. -/
example : ∃ c, analyse (fun _ => none) sample = some c ∧ c.demand "fib" = some "bf" ∧ c.demand "path" = none ∧ c.scheduler "edge" = some (.beam 5) ∧ c.scheduler "fib" = none ∧
    c.storage "edge" = some .indexedVec ∧ c.goal "found" = true ∧ c.goal "path" = false ∧ c.hidden "secret" = true ∧ c.hidden "edge" = false := by
  refine ⟨_, rfl, ?_⟩
  decide +kernel

example : ∀ it ∈ sample, Supported it := by
  intro it hit
  simp only [sample, List.mem_cons, List.not_mem_nil, or_false] at hit
  rcases hit with rfl | rfl | rfl | rfl | rfl | rfl <;> simp [Supported, Item.Has, Item.attrs]

/-- Conflicting patterns, a wrong length, two schedulers and two goals are errors. -/
example : analyse (fun _ => none) [.types [demandA "bf"] [⟨"p", [none, none]⟩], .rule [demandA "fb"] (.atom "p" 2)] = none ∧
    analyse (fun _ => some 3) [.types [demandA "bf"] [⟨"p", [none, none]⟩]] = none ∧
    analyse (fun _ => none) [.rule [⟨"scheduler", [.pos (.str "dfs")]⟩] (.atom "p" 1), .rule [⟨"scheduler", [.pos (.str "dfs")]⟩] (.atom "p" 1)] = none ∧
    analyse (fun _ => none) [.rule [⟨"goal", []⟩] (.atom "p" 0), .rule [⟨"goal", []⟩] (.atom "q" 0)] = none := by
  refine ⟨rfl, rfl, rfl, rfl⟩

/-- **C108 (demands), refuted.** `@demand` at a fact, a set or a rule with a conjunctive head is ignored, and a type declaration of several relations loses those with `bound` or `free` arguments: neither
their demands nor their types are kept. -/
theorem c108_demand_false :
    (∃ c, analyse (fun _ => none) [.fact [demandA "b"] "p" 1 true, .set [demandA "b"] "q", .rule [demandA "b"] (.conj [("r", 1), ("s", 1)])] = some c ∧ ∀ x, c.demand x = none) ∧
    (∃ c, analyse (fun _ => none) [.types [] [⟨"p", [some .bound, none]⟩, ⟨"q", [some .bound]⟩]] = some c ∧ ∀ x, c.demand x = none) ∧
    Demands (.types [] [⟨"p", [some .bound, none]⟩, ⟨"q", [some .bound]⟩]) "p" "bf" ∧
    ∀ it ∈ transform [.types [] [⟨"p", [some .bound, none]⟩, ⟨"q", [some .bound]⟩]], it.preds = [] := by
  refine ⟨⟨_, rfl, fun x => rfl⟩, ⟨_, rfl, fun x => rfl⟩, ?_, ?_⟩
  · exact .adorned (r := ⟨"p", [some .bound, none]⟩) (by simp) (by simp) ⟨some .bound, by simp, by simp⟩
  · intro it hit
    simp [transform, transformItem, desugarTypes, findAttr, newItems, RelType.hasAdornment] at hit
    subst hit
    rfl

/-- **C108 (disjunctive heads), refuted.** Demands of the other relations of a disjunctive head are not noticed, and a program without demands is refused with the error that a relation of a disjunctive head has
a demand if the relation has any attribute in a later declaration. -/
theorem c108_disjunctive_false :
    (∃ c, analyse (fun _ => none) [.types [demandA "b"] [⟨"q", [none]⟩], .rule [] (.disj [("p", 1), ("q", 1)])] = some c ∧ c.demand "q" = some "b") ∧
    analyse (fun _ => none) [.rule [] (.disj [("p", 1), ("q", 1)]), .types [⟨"hidden", []⟩] [⟨"p", [none]⟩]] = none ∧
    ((transform [.rule [] (.disj [("p", 1), ("q", 1)]), .types [⟨"hidden", []⟩] [⟨"p", [none]⟩]]).foldl DemandState.visit ⟨[], [], []⟩).errors = [.disjunctive] ∧
    (∃ c, analyse (fun _ => none) [.types [⟨"hidden", []⟩] [⟨"p", [none]⟩], .rule [] (.disj [("p", 1), ("q", 1)])] = some c) := by
  refine ⟨⟨_, rfl, ?_⟩, rfl, ?_, ⟨_, rfl⟩⟩ <;> decide +kernel

/-- **C108 (reduce rules, goals), refuted.** `@hidden` and `@scheduler` at a reduce rule and `@goal` at a fact without arguments or a conjunctive head are ignored. -/
theorem c108_ignored_false :
    (∃ c, analyse (fun _ => none) [.reduce [⟨"hidden", []⟩, ⟨"scheduler", [.pos (.str "dfs")]⟩] "n" (some 1)] = some c ∧ c.hidden "n" = false ∧ c.scheduler "n" = none) ∧
    (∃ c, analyse (fun _ => none) [.fact [⟨"goal", []⟩] "done" 0 true, .rule [⟨"goal", []⟩] (.conj [("win", 0), ("over", 0)])] = some c ∧ ∀ x, c.goal x = false) :=
  ⟨⟨_, rfl, rfl, rfl⟩, ⟨_, rfl, fun _ => rfl⟩⟩

end Scallop.Attr
