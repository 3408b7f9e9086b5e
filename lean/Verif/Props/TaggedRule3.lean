import Verif.Props.TaggedRule2

/-!
# Property theorems C96: concrete programs with tagged rules
-/

namespace Scallop.Tagged

open DnfCtx (HeapElem)

instance {V K : Type*} [LinearOrder V] [DecidableEq K] : DecidableEq (Event V K) := fun a b =>
  decidable_of_iff (a.rule = b.rule ∧ a.inst = b.inst ∧ a.prob = b.prob) ⟨fun h => by cases a; cases b; simp_all, fun h => h ▸ ⟨rfl, rfl, rfl⟩⟩

theorem topKProv_uniform' {K : Type*} [Field K] [LinearOrder K] (x : DnfCtx K) (pop : List (HeapElem K) → Option (HeapElem K × List (HeapElem K))) (k : Nat) :
    (topKProv x pop k).Uniform := by
  intro a a' b
  show (((topKProv x pop k).negate b).map _).isSome = (((topKProv x pop k).negate b).map _).isSome
  simp

/-- The elements that a run leaves in a relation, with the events. -/
def ERunResult.result {V T W ι K : Type*} [LinearOrder V] (c : Prov T W) (r : ERunResult V T ι K) (i : ι) : Option (List (Event V K) × List (Elem (Tup V) T)) :=
  match r with
  | .done L s => ((s.rel i).complete c).map (fun x => (L, x))
  | _ => none

theorem ERunResult.result_some {V T W ι K : Type*} [LinearOrder V] {c : Prov T W} {r : ERunResult V T ι K} {i : ι} {x} (h : r.result c i = some x) :
    ∃ s, r = .done x.1 s ∧ (s.rel i).complete c = some x.2 := by
  cases r with
  | done L s =>
    simp only [ERunResult.result, Option.map_eq_some_iff] at h
    obtain ⟨y, hy, rfl⟩ := h
    exact ⟨s, rfl, hy⟩
  | _ => cases h

/-! ### Recursion -/

/-- `reach(y) :- temp(x), edge(x, y)` and `1/2 :: temp(x) :- reach(x)`, for `1/2 :: reach(y) :- reach(x), edge(x, y)`: the tag predicate over the first atom. The
edges are 1 → 2, 1 → 3, 2 → 4 and 3 → 2, and `reach(1)` is a fact. -/
def exReach {T : Type*} (one : T) : EStratum Nat T Bool Unit ℚ where
  input := fun _ => [⟨kv 1 2, one⟩, ⟨kv 1 3, one⟩, ⟨kv 2 4, one⟩, ⟨kv 3 2, one⟩]
  edb := fun i => if i then none else some [⟨kv 1 0, one⟩]
  updates := [.plain false (.project (.join (.rel true) (.input ())) (fun t => match t with | .tup [_, _, y] => some (.tup [y, .val 0]) | _ => none)),
    .tagged "rt#reach#0" true (.rel false) (fun _ => some (some (1/2))) some]
  sched := fun _ => .lfp
  goals := []
  iterLimit := none
  stopAtGoal := false
  earlyDiscard := true

theorem exReach_ok {T W : Type*} (c : Prov T W) (hc : c.Uniform) (one : T) : (exReach one).forget.Ok c := by
  refine ⟨?_, ?_, fun _ => ?_, hc⟩
  · intro u hu
    simp only [exReach, EStratum.forget, List.map_cons, List.map_nil, List.mem_cons, List.not_mem_nil, or_false] at hu
    rcases hu with rfl | rfl <;> simp [Upd.forget, DF.wellSorted, DF.outSortedLe]
  · intro u hu
    simp only [exReach, EStratum.forget, List.map_cons, List.map_nil, List.mem_cons, List.not_mem_nil, or_false] at hu
    rcases hu with rfl | rfl <;> simp [Upd.forget, DF.stratified, DF.positive]
  · simp only [exReach, EStratum.forget, Sorted, List.pairwise_cons, List.mem_cons, List.not_mem_nil, or_false, forall_eq_or_imp, forall_eq]
    refine ⟨⟨?_, ?_, ?_⟩, ⟨?_, ?_⟩, ?_, ?_⟩ <;> first | decide +kernel | simp

theorem exReach_plain {T : Type*} (one : T) : (exReach one).forget.Plain ∧ ∀ u ∈ (exReach one).updates, u.forget.2.noMinus := by
  refine ⟨⟨?_, ?_, fun _ => rfl⟩, ?_⟩ <;> intro u hu
  · simp only [exReach, EStratum.forget, List.map_cons, List.map_nil, List.mem_cons, List.not_mem_nil, or_false] at hu
    rcases hu with rfl | rfl <;> simp [Upd.forget, DF.keepsTags]
  · simp only [exReach, EStratum.forget, List.map_cons, List.map_nil, List.mem_cons, List.not_mem_nil, or_false] at hu
    rcases hu with rfl | rfl <;> simp [Upd.forget, DF.sharp]
  · simp only [exReach, List.mem_cons, List.not_mem_nil, or_false] at hu
    rcases hu with rfl | rfl <;> simp [Upd.forget, DF.noMinus]

/-- 4 is reached exactly if the rule applies to 1 and to 2. -/
theorem exReach_derivable (w : Nat → Bool) (en : String → Tup Nat → Prop) :
    kv 4 0 ∈ (exReach [[]] : EStratum Nat Dnf Bool Unit ℚ).derivable (dnfHolds w) en false ↔ en "rt#reach#0" (kv 1 0) ∧ en "rt#reach#0" (kv 2 0) := by
  have hone : dnfHolds w [[]] := ⟨[], by simp, by intro l hl; simp at hl⟩
  constructor
  · intro h
    let X : Bool → Set (Tup Nat) := fun i => {t | (i = true → en "rt#reach#0" t) ∧
      (t = kv 1 0 ∨ ((t = kv 2 0 ∨ t = kv 3 0) ∧ en "rt#reach#0" (kv 1 0)) ∨ (t = kv 4 0 ∧ en "rt#reach#0" (kv 1 0) ∧ en "rt#reach#0" (kv 2 0)))}
    have hX : ((exReach [[]] : EStratum Nat Dnf Bool Unit ℚ).enable en |>.inWorld (dnfHolds w)).Closed unitProv X := by
      refine ⟨?_, ?_⟩
      · intro i facts hf t ht
        cases i
        · simp only [Stratum.inWorld, EStratum.enable, exReach, Bool.false_eq_true, if_false, Option.map_some, Option.some.injEq] at hf
          subst hf
          rw [tuples_inWorld] at ht
          obtain ⟨e, he, rfl, _⟩ := ht
          simp only [List.mem_singleton] at he
          subst he
          exact ⟨by simp, .inl rfl⟩
        · simp [Stratum.inWorld, EStratum.enable, exReach] at hf
      · intro u hu
        simp only [Stratum.inWorld, EStratum.enable, exReach, List.map_cons, List.map_nil, List.mem_cons, List.not_mem_nil, or_false] at hu
        rcases hu with rfl | rfl
        · rintro t ⟨u, ⟨k, a, b, rfl, ⟨x, hx, hx0, hx1⟩, ⟨y, hy, hy0, hy1⟩⟩, hu⟩
          have hy : y ∈ tuples (inWorld (dnfHolds w) ((exReach [[]] : EStratum Nat Dnf Bool Unit ℚ).input ())) := hy
          rw [tuples_inWorld] at hy
          obtain ⟨e, he, rfl, _⟩ := hy
          have hx : x ∈ X true := hx
          obtain ⟨h1, h2⟩ := hx
          simp only [Option.some.injEq] at hu
          subst hu
          have h1 := h1 rfl
          simp only [exReach, List.mem_cons, List.not_mem_nil, or_false] at he
          refine ⟨by simp [Upd.enable], ?_⟩
          rcases he with rfl | rfl | rfl | rfl <;> rcases h2 with rfl | ⟨rfl | rfl, h2⟩ | ⟨rfl, h2⟩ <;>
            simp_all [kv, Tup.at?]
        · rintro t ⟨u, ⟨hu, hacc⟩, hg⟩
          simp only [Option.some.injEq] at hg
          subst hg
          have hu : u ∈ X false := hu
          exact ⟨fun _ => (@of_decide_eq_true _ (_) hacc).2, hu.2⟩
    have := h X hX
    rcases this.2 with h | ⟨h | h, _⟩ | h
    · exact absurd h (by decide)
    · exact absurd h (by decide)
    · exact absurd h (by decide)
    · exact h.2
  · rintro ⟨h1, h2⟩ X hX
    have hedge : ∀ (x y : Nat), (⟨kv x y, [[]]⟩ : Elem (Tup Nat) Dnf) ∈ (exReach [[]] : EStratum Nat Dnf Bool Unit ℚ).input () → en "rt#reach#0" (kv x 0) →
        kv x 0 ∈ X false → kv y 0 ∈ X false := by
      intro x y hin hen hx
      have ht : kv x 0 ∈ X true := by
        refine hX.2 _ (List.mem_cons_of_mem _ (List.mem_singleton.2 rfl)) ?_
        exact ⟨kv x 0, ⟨hx, @decide_eq_true _ (_) ⟨rfl, hen⟩⟩, rfl⟩
      refine hX.2 _ List.mem_cons_self ?_
      refine ⟨.tup [.val x, .val 0, .val y], ⟨.val x, .val 0, .val y, rfl, ⟨_, ht, rfl, rfl⟩, ⟨kv x y, ?_, rfl, rfl⟩⟩, rfl⟩
      show kv x y ∈ tuples (inWorld _ _)
      rw [tuples_inWorld]
      exact ⟨_, hin, rfl, hone⟩
    refine hedge 2 4 (by simp [exReach]) h2 (hedge 1 2 (by simp [exReach]) h1 ?_)
    refine hX.1 false _ rfl ?_
    show kv 1 0 ∈ tuples (inWorld _ _)
    rw [tuples_inWorld]
    exact ⟨_, List.mem_singleton.2 rfl, rfl, hone⟩

/-- **C96 is false for recursive rules.** The rule of `exReach` is evaluated again for 2 when its tag changes, with a new event: 4 has probability 3/8, but 1/4 if every
rule and tuple has one event. -/
theorem c96_recursive_false : ∃ (p : EStratum Nat Dnf Bool Unit ℚ) (k fuel : Nat) (L : List (Event Nat ℚ)) (s : IterState Nat Dnf Bool) (res : List (Elem (Tup Nat) Dnf))
    (e : Elem (Tup Nat) Dnf), p.forget.Ok (topKProv exHalf DnfCtx.popMax k) ∧ p.forget.Plain ∧ (∀ u ∈ p.updates, u.forget.2.noMinus) ∧
    (p.updates.filterMap Upd.name).Nodup ∧ p.iterLimit = none ∧ p.stopAtGoal = false ∧
    p.run (topKProv exHalf DnfCtx.popMax k) (eventTag 0) fuel = .done L s ∧ (s.rel false).complete (topKProv exHalf DnfCtx.popMax k) = some res ∧ e ∈ res ∧
    ¬ OneEach L ∧ (∀ m ∈ L, m.rule = "rt#reach#0" ∧ m.prob = 1/2) ∧
    Dnf.wmc e.tag (Sdd.Diagram.realAlgebra ℚ) exHalf.prob = some (3/8) ∧
    eventProb exHalf.prob (Finset.range 5) (fun w => e.tuple ∈ p.derivable (dnfHolds w) (fun _ t => ∃ x, t = kv x 0 ∧ w x = true) false) = 1/4 := by
  have hrun : ((exReach [[]] : EStratum Nat Dnf Bool Unit ℚ).run (topKProv exHalf DnfCtx.popMax 9) (eventTag 0) 9).result (topKProv exHalf DnfCtx.popMax 9) false =
      some ([kv 1 0, kv 2 0, kv 3 0, kv 2 0, kv 4 0, kv 4 0].map (fun t => ⟨"rt#reach#0", t, 1/2⟩), [⟨kv 1 0, [[]]⟩, ⟨kv 2 0, [[.pos 0], [.pos 0, .pos 2]]⟩, ⟨kv 3 0, [[.pos 0]]⟩,
        ⟨kv 4 0, [[.pos 0, .pos 1], [.pos 0, .pos 3], [.pos 0, .pos 2, .pos 3]]⟩]) := by decide +kernel
  obtain ⟨s, h1, h2⟩ := ERunResult.result_some hrun
  refine ⟨exReach [[]], 9, 9, _, s, _, ⟨kv 4 0, [[.pos 0, .pos 1], [.pos 0, .pos 3], [.pos 0, .pos 2, .pos 3]]⟩, exReach_ok _ (topKProv_uniform' _ _ _) _, (exReach_plain _).1, (exReach_plain _).2,
    by decide +kernel, rfl, rfl, h1, h2, by simp, ?_, ?_, by decide +kernel, ?_⟩
  · intro h
    exact absurd (h 1 3 _ _ rfl rfl rfl rfl) (by decide)
  · intro m hm
    obtain ⟨t, _, rfl⟩ := List.mem_map.1 hm
    exact ⟨rfl, rfl⟩
  · have h := c53_dnf [[.pos 1, .pos 2]] exHalf.prob (Finset.range 5) (by
      intro c hc l hl
      simp only [List.mem_singleton] at hc
      subst hc
      simp only [List.mem_cons, List.not_mem_nil, or_false] at hl
      rcases hl with rfl | rfl <;> decide)
    have h2 : Dnf.wmc [[.pos 1, .pos 2]] (Sdd.Diagram.realAlgebra ℚ) exHalf.prob = some (1/4) := by decide +kernel
    rw [h2, Option.some.injEq] at h
    rw [h]
    refine congrArg (eventProb exHalf.prob (Finset.range 5)) (funext fun w => propext ?_)
    rw [exReach_derivable]
    simp [dnfHolds, Clause.holds, Literal.holds, kv]

/-! ### The order of the joins -/

/-- `1/2 :: p(x, z) :- q(y, x), s(y, z)` and `pairs(x, z, z') :- p(x, z), p(x, z')`, where the first atom in the order of the joins is `q` or `s`. The facts are `q(5, 1)`, `s(5, 7)` and
`s(5, 8)`. -/
def exOrder {T : Type*} (first : Bool) (one : T) : EStratum Nat T (Fin 3) Bool ℚ where
  input := fun b => if b then [⟨kv 5 1, one⟩] else [⟨kv 5 7, one⟩, ⟨kv 5 8, one⟩]
  edb := fun _ => none
  updates := [.tagged "rt#p#0" 0 (.input first) (fun _ => some (some (1/2))) some,
    .plain 1 (.project (if first then .join (.rel 0) (.input false) else .join (.input true) (.rel 0)) (fun t => match t with | .tup [_, x, z] => some (.tup [x, z]) | _ => none)),
    .plain 2 (.join (.rel 1) (.rel 1))]
  sched := fun _ => .lfp
  goals := []
  iterLimit := none
  stopAtGoal := false
  earlyDiscard := true

/-- **The meaning of a tagged rule depends on the order of the joins**, which the planner chooses: the probability of both `p(1, 7)` and `p(1, 8)` is 1/2 if the first atom is `q`, and 1/4 if
it is `s`. -/
theorem c96_order_false : (((exOrder true [[]] : EStratum Nat Dnf (Fin 3) Bool ℚ).run (topKProv exHalf DnfCtx.popMax 9) (eventTag 0) 9).result (topKProv exHalf DnfCtx.popMax 9) 2).map
      (fun x => (x.1.map Event.inst, x.2.map (fun e => (e.tuple, Dnf.wmc e.tag (Sdd.Diagram.realAlgebra ℚ) exHalf.prob)))) =
      some ([kv 5 1], [(.tup [.val 1, .val 7, .val 7], some (1/2)), (.tup [.val 1, .val 7, .val 8], some (1/2)), (.tup [.val 1, .val 8, .val 7], some (1/2)),
        (.tup [.val 1, .val 8, .val 8], some (1/2))]) ∧
    (((exOrder false [[]] : EStratum Nat Dnf (Fin 3) Bool ℚ).run (topKProv exHalf DnfCtx.popMax 9) (eventTag 0) 9).result (topKProv exHalf DnfCtx.popMax 9) 2).map
      (fun x => (x.1.map Event.inst, x.2.map (fun e => (e.tuple, Dnf.wmc e.tag (Sdd.Diagram.realAlgebra ℚ) exHalf.prob)))) =
      some ([kv 5 7, kv 5 8], [(.tup [.val 1, .val 7, .val 7], some (1/2)), (.tup [.val 1, .val 7, .val 8], some (1/4)), (.tup [.val 1, .val 8, .val 7], some (1/4)),
        (.tup [.val 1, .val 8, .val 8], some (1/2))]) := by decide +kernel

/-! ### Divergence -/

/-- `1/2 :: p(x) :- p(x)` with the fact `p(1)`. -/
def exLoop {T : Type*} (one : T) : EStratum Nat T Unit Unit ℚ where
  input := fun _ => []
  edb := fun _ => some [⟨kv 1 0, one⟩]
  updates := [.tagged "rt#p#0" () (.rel ()) (fun _ => some (some (1/2))) some]
  sched := fun _ => .lfp
  goals := []
  iterLimit := none
  stopAtGoal := false
  earlyDiscard := true

/-- The step of the relation: the pending element is not redundant, and takes the stored one. -/
theorem loop_changed {T W : Type*} [LinearOrder W] (c : Prov T W) (st : List (List (Elem (Tup Nat) T))) (hst : st = [] ∨ st = [[]]) (a b : T)
    (h : c.saturated a (c.add a b) = false) :
    Relation.changed c .lfp (⟨st, [⟨kv 1 0, a⟩], [[⟨kv 1 0, b⟩]], []⟩ : Relation (Tup Nat) T) = some (⟨[[]], [⟨kv 1 0, c.add a b⟩], [], []⟩, true) := by
  have hs : (mergeIntoStable c [(⟨kv 1 0, a⟩ : Elem (Tup Nat) T)] st.reverse).reverse = [[⟨kv 1 0, a⟩]] := by
    rcases hst with rfl | rfl <;> simp [mergeIntoStable, merge]
  simp only [Relation.changed, List.isEmpty_cons, Bool.false_eq_true, if_false, hs]
  simp [condense, Scheduler.schedule, scheduleLfp, scanStable, scanBatch, seekLinear, stableRetain, satUpdate, h, retainIdx]

theorem changedAll_unit {T W : Type*} [LinearOrder W] (c : Prov T W) (sched : Unit → Scheduler) (rel : Unit → Relation (Tup Nat) T) (r : Relation (Tup Nat) T) (b : Bool)
    (h : (rel ()).changed c (sched ()) = some (r, b)) : changedAll c sched rel = some (fun _ => r, b) := by
  have hs : ∀ i, ((rel i).changed c (sched i)).isSome := fun _ => by rw [h]; rfl
  simp only [changedAll, hs, implies_true, dite_true]
  simp [h]

/-- The state after an iteration: the last event is `m`, and the stored tag has proofs of earlier events only, one of them empty. -/
def LoopState (ds : Disjunctions) (m : Nat) (s : EState Nat Proofs Unit ℚ) : Prop :=
  s.1.length = m + 1 ∧ ∃ (st : List (List (Elem (Tup Nat) Proofs))) (A : Proofs), (st = [] ∨ st = [[]]) ∧
    s.2.rel = (fun _ => ⟨st, [⟨kv 1 0, A⟩], [[⟨kv 1 0, (proofsProv ds).mult A [[m]]⟩]], []⟩) ∧ [] ∈ A ∧ ∀ p ∈ A, ∀ x ∈ p, x < m

theorem mem_loop (ds : Disjunctions) {A : Proofs} (m : Nat) (h : [] ∈ A) : [m] ∈ (proofsProv ds).mult A [[m]] := by
  rw [mem_mult]
  refine ⟨⟨[], h, [m], by simp, by simp [Proof.merge, bsetCollect, bsetInsert]⟩, by simp [Disjunctions.hasConflict, Disjunctions.hasConflict?]⟩

theorem loop_step (ds : Disjunctions) (m : Nat) (s : EState Nat Proofs Unit ℚ) (h : LoopState ds m s) :
    ∃ s' s'', needToIterate (proofsProv ds) (exLoop [[]] : EStratum Nat Proofs Unit Unit ℚ).forget s.2 = some (s', true) ∧
      eIterBody (proofsProv ds) (fun n => [[n]]) (exLoop [[]]) (s.1, s') = some s'' ∧ LoopState ds (m + 1) s'' := by
  obtain ⟨hl, st, A, hst, hr, hA, hlt⟩ := h
  have hm := mem_loop ds m hA
  have hns : (proofsProv ds).saturated A ((proofsProv ds).add A ((proofsProv ds).mult A [[m]])) = false := by
    refine decide_eq_false fun he => ?_
    have : [m] ∈ Proofs.union A ((proofsProv ds).mult A [[m]]) := (mem_union _ _ _).2 (.inr hm)
    have he : A = Proofs.union A ((proofsProv ds).mult A [[m]]) := he
    rw [← he] at this
    exact absurd (hlt _ this m (by simp)) (lt_irrefl m)
  have hch := changedAll_unit (proofsProv ds) (exLoop [[]] : EStratum Nat Proofs Unit Unit ℚ).forget.sched s.2.rel _ _ (by
    rw [hr]; exact loop_changed (proofsProv ds) st hst A _ hns)
  have hA' : [] ∈ (proofsProv ds).add A ((proofsProv ds).mult A [[m]]) := (mem_union _ _ _).2 (.inl hA)
  have hm' := mem_loop ds (m + 1) hA'
  have hd : (proofsProv ds).discard ((proofsProv ds).mult ((proofsProv ds).add A ((proofsProv ds).mult A [[m]])) [[m + 1]]) = false := by
    show List.isEmpty _ = false
    rw [List.isEmpty_eq_false_iff]
    exact List.ne_nil_of_mem hm'
  let A' := (proofsProv ds).add A ((proofsProv ds).mult A [[m]])
  refine ⟨⟨s.2.num, fun _ => ⟨[[]], [⟨kv 1 0, A'⟩], [], []⟩⟩,
    (s.1 ++ [⟨"rt#p#0", kv 1 0, 1/2⟩], ⟨s.2.num + 1, fun _ => ⟨[[]], [⟨kv 1 0, A'⟩], [[⟨kv 1 0, (proofsProv ds).mult A' [[m + 1]]⟩]], []⟩⟩), ?_, ?_, ?_⟩
  · unfold needToIterate
    rw [hch]
    simp [EStratum.forget, exLoop, A']
  · simp only [eIterBody, exLoop, List.foldlM_cons, List.foldlM_nil, applyUpd, DF.recent, Option.bind_some, List.map_cons, List.map_nil, tagBatches, tagElems, hl]
    simp [Relation.insertBatches, hd, fromVec, sortElems, runs, A']
    funext i
    simp [Function.update]
  · refine ⟨by simp [hl], [[]], A', .inr rfl, rfl, hA', ?_⟩
    intro p hp x hx
    rcases (mem_union _ _ _).1 hp with hp | hp
    · exact (hlt p hp x hx).trans (Nat.lt_succ_self m)
    · obtain ⟨⟨p1, h1, p2, h2, rfl⟩, _⟩ := (mem_mult _ _ _ _).1 hp
      simp only [List.mem_singleton] at h2
      subst h2
      unfold Proof.merge at hx
      rw [mem_bsetCollect, List.mem_append, List.mem_singleton] at hx
      rcases hx with hx | rfl
      · exact (hlt p1 h1 x hx).trans (Nat.lt_succ_self m)
      · exact Nat.lt_succ_self _

/-- **A recursive tagged rule need not terminate.** With the provenance that keeps all proofs, for any exclusions of the facts, every evaluation of `1/2 :: p(x) :- p(x)` makes a new event and so a new proof; no
number of turns is enough, although without the tag the program terminates at once. -/
theorem c96_diverges (ds : Disjunctions) (fuel : Nat) :
    (exLoop [[]] : EStratum Nat Proofs Unit Unit ℚ).run (proofsProv ds) (fun n => [[n]]) fuel = .outOfFuel := by
  have hloop : ∀ (fuel m : Nat) (s : EState Nat Proofs Unit ℚ), LoopState ds m s → eRunLoop (proofsProv ds) (fun n => [[n]]) (exLoop [[]]) fuel s = .outOfFuel := by
    intro fuel
    induction fuel with
    | zero => intro m s _; rfl
    | succ fuel ih =>
      intro m s h
      obtain ⟨s', s'', h1, h2, h3⟩ := loop_step ds m s h
      unfold eRunLoop
      rw [h1]
      simp only [h2]
      exact ih _ _ h3
  cases fuel with
  | zero => rfl
  | succ fuel =>
    have hinit : ((exLoop [[]] : EStratum Nat Proofs Unit Unit ℚ).forget.init (proofsProv ds)).rel = fun _ => ⟨[], [], [[⟨kv 1 0, [[]]⟩]], []⟩ := by
      funext i
      simp [Stratum.init, EStratum.forget, exLoop, Relation.insertBatches, Relation.new, fromVec, sortElems, runs, proofsProv]
    have hch := changedAll_unit (proofsProv ds) (exLoop [[]] : EStratum Nat Proofs Unit Unit ℚ).forget.sched
      ((exLoop [[]] : EStratum Nat Proofs Unit Unit ℚ).forget.init (proofsProv ds)).rel ⟨[], [⟨kv 1 0, [[]]⟩], [], []⟩ true (by
        rw [hinit]
        simp [Relation.changed, EStratum.forget, exLoop, condense, Scheduler.schedule, scheduleLfp, scanStable, retainIdx])
    have hn : needToIterate (proofsProv ds) (exLoop [[]] : EStratum Nat Proofs Unit Unit ℚ).forget ((exLoop [[]] : EStratum Nat Proofs Unit Unit ℚ).forget.init (proofsProv ds)) =
        some (⟨0, fun _ => ⟨[], [⟨kv 1 0, [[]]⟩], [], []⟩⟩, true) := by
      unfold needToIterate
      rw [hch]
      simp [EStratum.forget, exLoop, Stratum.init]
    have hd : (proofsProv ds).discard ((proofsProv ds).mult [[]] [[0]]) = false := by
      rw [show ∀ t : Proofs, (proofsProv ds).discard t = t.isEmpty from fun _ => rfl, List.isEmpty_eq_false_iff]
      exact List.ne_nil_of_mem (mem_loop ds 0 (by simp))
    have hb : eIterBody (proofsProv ds) (fun n => [[n]]) (exLoop [[]] : EStratum Nat Proofs Unit Unit ℚ) ([], ⟨0, fun _ => ⟨[], [⟨kv 1 0, [[]]⟩], [], []⟩⟩) =
        some ([⟨"rt#p#0", kv 1 0, 1/2⟩], ⟨1, fun _ => ⟨[], [⟨kv 1 0, [[]]⟩], [[⟨kv 1 0, (proofsProv ds).mult [[]] [[0]]⟩]], []⟩⟩) := by
      simp only [eIterBody, exLoop, List.foldlM_cons, List.foldlM_nil, applyUpd, DF.recent, Option.bind_some, List.map_cons, List.map_nil, tagBatches, tagElems, List.length_nil]
      simp [Relation.insertBatches, hd, fromVec, sortElems, runs]
      funext i
      simp [Function.update]
    unfold EStratum.run eRunLoop
    rw [hn]
    simp only [hb]
    exact hloop fuel 0 _ ⟨rfl, [], [[]], .inl rfl, rfl, by simp, by simp⟩
/-- Without its tag the program terminates in two turns, and with top-3 proofs in four. -/
example : (match (exLoop [[]] : EStratum Nat Proofs Unit Unit ℚ).forget.run (proofsProv ⟨[], []⟩) 2 with | .done s => decide ((s.rel ()).complete (proofsProv ⟨[], []⟩) = some [⟨kv 1 0, [[]]⟩]) | _ => false) = true ∧
    ((exLoop [[]] : EStratum Nat Dnf Unit Unit ℚ).run (topKProv exHalf DnfCtx.popMax 3) (eventTag 0) 5).result (topKProv exHalf DnfCtx.popMax 3) () =
      some ([0, 1, 2].map (fun _ => ⟨"rt#p#0", kv 1 0, 1/2⟩), [⟨kv 1 0, [[], [.pos 0], [.pos 1]]⟩]) := by decide +kernel

/-! ### Programs that meet the hypotheses -/

/-- `1/2 :: path(x, y) :- edge(x, y)` and `path(x, z) :- path(x, y), edge(y, z)` for the edges 1 → 2, 1 → 3 and 2 → 3. -/
def exTagged {T : Type*} (a b d : T) : EStratum Nat T Unit Unit ℚ where
  input := fun _ => (exTriangle a b d).map (fun e => ⟨kv e.1.1 e.1.2, e.2⟩)
  edb := fun _ => none
  updates := [.tagged "rt#path#0" () (.input ()) (fun _ => some (some (1/2))) some, .plain () exPathRule]
  sched := fun _ => .lfp
  goals := []
  iterLimit := none
  stopAtGoal := false
  earlyDiscard := true

/-- `c96_one_event`, `c96_separate`, `c96_probability_partial` and `c96_probability_bound`: the tagged rule reads a finished collection. -/
example {T W : Type*} [LinearOrder W] (c : Prov T W) (hc : c.Uniform) (a b d : T) :
    (exTagged a b d).forget.Ok c ∧ (exTagged a b d).forget.Plain ∧ (exTagged a b d).Separate ∧ (∀ u ∈ (exTagged a b d).updates, u.forget.2.noMinus) ∧
    (exTagged a b d).events = [⟨"rt#path#0", kv 1 2, 1/2⟩, ⟨"rt#path#0", kv 1 3, 1/2⟩, ⟨"rt#path#0", kv 2 3, 1/2⟩] ∧
    ∀ ev s, (exTagged a b d).Reached c ev s → ∀ i, (s.2.rel i).noGallop c := by
  have hok : (exTagged a b d).forget.Ok c := by
    refine ⟨?_, ?_, fun _ => exTriangle_sorted a b d, hc⟩
    · intro u hu
      simp only [exTagged, EStratum.forget, List.map_cons, List.map_nil, List.mem_cons, List.not_mem_nil, or_false] at hu
      rcases hu with rfl | rfl <;> simp [Upd.forget, exPathRule, DF.wellSorted, DF.outSortedLe]
    · intro u hu
      simp only [exTagged, EStratum.forget, List.map_cons, List.map_nil, List.mem_cons, List.not_mem_nil, or_false] at hu
      rcases hu with rfl | rfl <;> simp [Upd.forget, exPathRule, DF.stratified, DF.positive]
  refine ⟨hok, ⟨?_, ?_, fun _ => rfl⟩, ⟨?_, by simp [exTagged, Upd.name, List.filterMap_cons]⟩, ?_, ?_, ?_⟩
  · intro u hu
    simp only [exTagged, EStratum.forget, List.map_cons, List.map_nil, List.mem_cons, List.not_mem_nil, or_false] at hu
    rcases hu with rfl | rfl <;> simp [Upd.forget, exPathRule, DF.keepsTags]
  · intro u hu
    simp only [exTagged, EStratum.forget, List.map_cons, List.map_nil, List.mem_cons, List.not_mem_nil, or_false] at hu
    rcases hu with rfl | rfl <;> simp [Upd.forget, exPathRule, DF.sharp]
  · intro rule i dd f g hu
    simp only [exTagged, List.mem_cons, List.not_mem_nil, or_false, Upd.tagged.injEq, reduceCtorEq] at hu
    obtain ⟨rfl, -, rfl, -, -⟩ := hu
    refine ⟨by simp [DF.static], ?_⟩
    show (((exTriangle a b d).map (fun e => (⟨kv e.1.1 e.1.2, e.2⟩ : Elem (Tup Nat) T))).map Elem.tuple).Nodup
    simp [exTriangle, kv]
  · intro u hu
    simp only [exTagged, List.mem_cons, List.not_mem_nil, or_false] at hu
    rcases hu with rfl | rfl <;> simp [Upd.forget, exPathRule, DF.noMinus]
  · rfl
  · have hb := exPath_bound [(1, 2), (1, 3), (2, 3)] .lfp {(1, 2), (1, 3), (2, 3)} (by decide) (by
      intro a b h d hd
      simp only [List.mem_cons, Prod.mk.injEq, List.not_mem_nil, or_false] at hd
      simp only [Finset.mem_insert, Finset.mem_singleton, Prod.mk.injEq] at h ⊢
      omega)
    have he : (exTagged a b d).forget.lfp c = (exPath [(1, 2), (1, 3), (2, 3)] .lfp).lfp unitProv := by
      rw [← show (exPathT (exTriangle a b d)).lfp c = (exPath [(1, 2), (1, 3), (2, 3)] .lfp).lfp unitProv from exPathT_lfp c _]
      have hcl : ∀ X, (exTagged a b d).forget.Closed c X ↔ (exPathT (exTriangle a b d)).Closed c X := by
        intro X
        simp [Stratum.Closed, EStratum.forget, exTagged, exPathT, Upd.forget, DF.sem, accepts]
      funext i
      ext t
      exact ⟨fun h X hX => h X ((hcl X).mpr hX), fun h X hX => h X ((hcl X).mp hX)⟩
    intro ev s hs i
    refine eReached_noGallop_small c ev _ hok ?_ ?_ hs i
    · intro i; rw [he]; exact (hb i).1
    · intro i; rw [he]; exact (hb i).2.trans (by decide)
/-- With top-k proofs 3 is reached from 1 by the second event (fact 2), or by the first (fact 1) and the edge from 2 (fact 0). -/
example : ((exTagged [[]] [[]] [[.pos 0]] : EStratum Nat Dnf Unit Unit ℚ).run (topKProv exHalf DnfCtx.popMax 9) (eventTag 1) 6).result (topKProv exHalf DnfCtx.popMax 9) () =
    some ([⟨"rt#path#0", kv 1 2, 1/2⟩, ⟨"rt#path#0", kv 1 3, 1/2⟩, ⟨"rt#path#0", kv 2 3, 1/2⟩],
      [⟨kv 1 2, [[.pos 1]]⟩, ⟨kv 1 3, [[.pos 2], [.pos 0, .pos 1]]⟩, ⟨kv 2 3, [[.pos 0, .pos 3]]⟩]) := by decide +kernel
/-- `c96_bounds` and `c96_min_max`: the recursive program above, with min-max probabilities. -/
example : (exReach (1 : ℚ)).forget.Ok (minMaxProv ℚ) ∧ (exReach (1 : ℚ)).forget.Plain ∧ ((exReach (1 : ℚ)).updates.filterMap Upd.name).Nodup ∧
    ((exReach (1 : ℚ)).run (minMaxProv ℚ) (fun _ => 1/2) 9).result (minMaxProv ℚ) false =
      some ([kv 1 0, kv 2 0, kv 3 0, kv 4 0].map (fun t => ⟨"rt#reach#0", t, 1/2⟩), [⟨kv 1 0, 1⟩, ⟨kv 2 0, 1/2⟩, ⟨kv 3 0, 1/2⟩, ⟨kv 4 0, 1/2⟩]) :=
  ⟨exReach_ok _ (by intro a a' b; rfl) _, (exReach_plain _).1, by decide +kernel, by decide +kernel⟩

end Scallop.Tagged
