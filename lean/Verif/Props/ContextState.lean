import Verif.Proof.ContextState

/-!
# C118: A restored or copied context is the context it was made from
-/

namespace Scallop.CtxState

/-- **C118**, restoring: if none of the calls of a user has raised an exception, no relation was made (non-)probabilistic or given an input mapping but by its
declaration, none was declared after facts were added to it, and the program needs neither settings nor the standard library, then the context can be restored, has the same
fields, and the bindings get exactly the program again, in order, with the same facts, up to increasing the numbers of all choices by the same amount. *Partial*:
these conditions, and settings and the standard library are lost (`c118_settings_false`). -/
theorem c118_restore_partial (w : World) (prov : String) (k : Nat) (wmc : Bool) (trainK testK : Option Nat) (noStdlib : Bool) (mons : List String)
    (calls : List Call) (c : Ctx) (hrun : runAll w calls (newCtx prov k wmc trainK testK noStdlib mons) = some c) (hset : Settled calls)
    (hind : Independent w (prov, k, wmc) c.counter) :
    ∃ c', restore w c = some c' ∧ Same c' c ∧ (c'.prov = prov ∧ c'.k = some k ∧ c'.wmc = wmc ∧ c'.trainK = trainK ∧ c'.testK = testK ∧ c'.mons = mons) ∧
      c'.internal = ⟨(prov, k, wmc), (c.internal.log.filter isProgram).map (shiftOp c.counter)⟩ := by
  obtain ⟨h1, h2, h3, h4, h5, h6, h7⟩ := run_fixed w calls _ c hrun
  have hh := run_history w calls _ c hrun hset.1
  simp only [newCtx, List.nil_append] at h1 h2 h3 h4 h5 h6 h7 hh
  obtain ⟨d', hd, hs⟩ := replay_sim w calls (newCtx prov k wmc trainK testK noStdlib mons) { c with history := [], internal := ⟨(c.prov, k, c.wmc), []⟩ } c hrun hset hind
    { prov := h1, k := h2, wmc := h3, trainK := h4, testK := h5, mons := h6, counter := by simp [newCtx], history := rfl,
      internal := by
        cases noStdlib <;> by_cases hm : mons = [] <;> simp [newCtx, h1, h3, hm, isProgram],
      mappings := fun r => rfl, retain := fun r => rfl, nonProb := fun r => by simp [newCtx], single := fun r => by simp [newCtx] }
  refine ⟨d', ?_, ⟨hs.prov, hs.k, hs.wmc, hs.trainK, hs.testK, hs.mons, ?_, ?_, ?_, ?_, hs.history⟩,
    ⟨hs.prov.trans h1, hs.k.trans h2, hs.wmc.trans h3, hs.trainK.trans h4, hs.testK.trans h5, hs.mons.trans h6⟩, ?_⟩
  · simp only [restore, h2, hh]
    rw [h2] at hd
    exact hd
  · funext r
    rw [hs.mappings]
    cases c.mappings r <;> rfl
  · funext r
    rw [hs.retain]
    cases c.retain r <;> rfl
  · funext r
    rw [hs.nonProb, Bool.or_self]
  · funext r
    rw [hs.single, Bool.or_self]
  · rw [hs.internal, h7]

/-- A world in which everything is accepted, and calls that meet the conditions: a relation with an exclusive choice of two facts, a setting, a rule. -/
example : Independent ⟨fun _ _ => true, fun _ _ => true, fun _ _ _ => true⟩ ("topkproofs", 3, false) 1 ∧
    Settled [.act (.relation "r" "r(i32)" true none none false), .act (.facts "r" [.tup [.num 1, .num 2], .tup [.num 1, .num 3]] [[0, 1]]),
      .set (.iterLimit (some 5)), .act (.rule "s(x) = r(x)")] := by
  refine ⟨⟨fun _ _ _ _ => rfl, fun _ _ _ _ => rfl⟩, ?_, ?_⟩
  · intro x hx
    simp only [List.mem_cons, List.not_mem_nil, or_false] at hx
    rcases hx with rfl | rfl | rfl | rfl <;> simp
  · simp [Adds, Declares]

example : (restore ⟨fun _ _ => true, fun _ _ => true, fun _ _ _ => true⟩
      ((runAll ⟨fun _ _ => true, fun _ _ => true, fun _ _ _ => true⟩
        [.act (.relation "r" "r(i32)" true none none false), .act (.facts "r" [.tup [.num 1, .num 2], .tup [.num 1, .num 3]] [[0, 1]]), .act (.rule "s(x) = r(x)")]
        (newCtx "topkproofs" 3 false none none false [])).get (by rfl))).map (fun c => c.internal.log) =
    some [.relation "r" "r(i32)", .facts "r" [⟨some (.num 1), some (some 1), .tup [.num 2]⟩, ⟨some (.num 1), some (some 1), .tup [.num 3]⟩], .rule "s(x) = r(x)"] := by
  rfl

/-- **C118**, the choices of facts: a fact has the number of the last choice that names it, or none. -/
theorem c118_choice (i : Nat) : ∀ (disj : List (List Nat)) (c n : Nat), lastDisj i disj c = some n ↔
    ∃ j d, n = c + j ∧ disj[j]? = some d ∧ i ∈ d ∧ ∀ j' d', j < j' → disj[j']? = some d' → i ∉ d'
  | [], c, n => by simp [lastDisj]
  | d :: ds, c, n => by
    have ih := c118_choice i ds (c + 1)
    simp only [lastDisj]
    cases h : lastDisj i ds (c + 1) with
    | some m =>
      obtain ⟨j, e, hm, he, hi, hl⟩ := (ih m).mp h
      simp only [Option.some.injEq]
      constructor
      · rintro rfl
        refine ⟨j + 1, e, by omega, by simpa using he, hi, ?_⟩
        intro j' d' hj hd'
        cases j' with
        | zero => omega
        | succ j' => exact hl j' d' (by omega) (by simpa using hd')
      · rintro ⟨j2, e2, hn, he2, hi2, hl2⟩
        cases j2 with
        | zero => exact absurd hi (hl2 (j + 1) e (by omega) (by simpa using he))
        | succ j2 =>
          have : lastDisj i ds (c + 1) = some n := (ih n).mpr ⟨j2, e2, by omega, by simpa using he2, hi2, fun j' d' hj hd' => hl2 (j' + 1) d' (by omega) (by simpa using hd')⟩
          rw [h] at this
          exact Option.some.inj this
    | none =>
      have hno : ∀ (j : Nat) (e : List Nat), ds[j]? = some e → i ∉ e := by
        intro j e he hi
        have hb : ∀ j : Nat, (∃ e, ds[j]? = some e ∧ i ∈ e) → j < ds.length := by
          rintro j ⟨e, he, _⟩
          exact (List.getElem?_eq_some_iff.mp he).1
        have : ∀ k, ∀ j : Nat, ds.length - j ≤ k → (∃ e, ds[j]? = some e ∧ i ∈ e) → ∃ (j : Nat) (e : List Nat), ds[j]? = some e ∧ i ∈ e ∧ ∀ (j' : Nat) (d' : List Nat), j < j' → ds[j']? = some d' → i ∉ d' := by
          intro k
          induction k with
          | zero => intro j hk hj; have := hb j hj; omega
          | succ k ihk =>
            rintro j hk ⟨e, he, hi⟩
            by_cases hlast : ∀ (j' : Nat) (d' : List Nat), j < j' → ds[j']? = some d' → i ∉ d'
            · exact ⟨j, e, he, hi, hlast⟩
            · simp only [Classical.not_forall] at hlast
              obtain ⟨j', d', hj', hd', hi'⟩ := hlast
              have hlt := hb j ⟨e, he, hi⟩
              exact ihk j' (by omega) ⟨d', hd', Classical.not_not.mp hi'⟩
        obtain ⟨j, e, h1, h2, h3⟩ := this _ j (Nat.le_refl _) ⟨e, he, hi⟩
        have := (ih (c + 1 + j)).mpr ⟨j, e, rfl, h1, h2, h3⟩
        rw [h] at this
        cases this
      by_cases hd : i ∈ d
      · simp only [List.contains_iff_mem.mpr hd, if_true, Option.some.injEq]
        constructor
        · rintro rfl
          refine ⟨0, d, rfl, rfl, hd, ?_⟩
          intro j' d' hj hd'
          cases j' with
          | zero => omega
          | succ j' => exact hno j' d' (by simpa using hd')
        · rintro ⟨j, e, hn, he, hi, hl⟩
          cases j with
          | zero => omega
          | succ j => exact absurd hi (hno j e (by simpa using he))
      · have hc : d.contains i = false := by simpa using hd
        simp only [hc, Bool.false_eq_true, if_false]
        constructor
        · intro hx; cases hx
        · rintro ⟨j, e, hn, he, hi, hl⟩
          cases j with
          | zero =>
            simp only [List.getElem?_cons_zero, Option.some.injEq] at he
            exact absurd (he ▸ hi) hd
          | succ j => exact absurd hi (hno j e (by simpa using he))

/-- A map that never fails. -/
theorem mapM_total {α β : Type} (f : α → Option β) (g : α → β) (h : ∀ x, f x = some (g x)) : ∀ l : List α, l.mapM f = some (l.map g)
  | [] => rfl
  | x :: l => by simp [List.mapM_cons, h, mapM_total f g h l]

/-- **C118**, facts with `proofs`: they have no tags; each is passed with its choice, and a choice that names a fact that is not there is an exception. -/
theorem c118_proofs_facts (nonProb single : Bool) (counter : Nat) (elems : List V) (disj : List (List Nat)) :
    ((∃ d ∈ disj, ∃ i ∈ d, elems.length ≤ i) → factsOf "proofs" nonProb single counter elems disj = none) ∧
    ((∀ d ∈ disj, ∀ i ∈ d, i < elems.length) → ∃ fs, factsOf "proofs" nonProb single counter elems disj = some fs ∧ fs.length = elems.length ∧
      ∀ (i : Nat) (e : V), elems[i]? = some e → fs[i]? = some ⟨none, some (lastDisj i disj counter), if single then wrap e else e⟩) := by
  have ht : requiresTag "proofs" = false := by decide +kernel
  have hs : supports "proofs" = true := by decide +kernel
  refine ⟨?_, ?_⟩
  · rintro ⟨d, hd, i, hi, hl⟩
    have : (disj.any fun d => d.any fun i => decide (elems.length ≤ i)) = true :=
      List.any_eq_true.mpr ⟨d, hd, List.any_eq_true.mpr ⟨i, hi, decide_eq_true hl⟩⟩
    simp [factsOf, ht, hs, this]
  · intro h
    have hno : (disj.any fun d => d.any fun i => decide (elems.length ≤ i)) = false := by
      rw [List.any_eq_false]
      intro d hd
      rw [Bool.not_eq_true, List.any_eq_false]
      intro i hi
      have := h d hd i hi
      simpa using this
    refine ⟨elems.zipIdx.map (fun q => ⟨none, some (lastDisj q.2 disj counter), if single then wrap q.1 else q.1⟩), ?_, by simp, ?_⟩
    · simp only [factsOf, ht, hs, Bool.and_false, Bool.false_eq_true, if_false, if_true, hno]
      exact mapM_total _ _ (fun _ => rfl) _
    · intro i e he
      rw [List.getElem?_map, List.getElem?_zipIdx, he]
      simp

/-- Both cases occur. -/
example : (factsOf "proofs" false true 4 [.num 1, .num 2, .num 3] [[0, 1]]).map (List.map Fact.disj) = some [some (some 4), some (some 4), some none] ∧
    (factsOf "proofs" false true 4 [.num 1, .num 2, .num 3] [[0, 3]]).isNone = true := by decide +kernel

/-- **C118**, settings: no restored context has what does not belong to the program: the standard library, the registry of tensors, the monitors, the limit of iterations, early
discarding; *although* every new context has the first two, and a user has set the others. -/
theorem c118_settings_false (w : World) : (∀ c c', restore w c = some c' → ∀ op ∈ c'.internal.log, isProgram op = true) ∧
    ∀ (prov : String) (k n : Nat) (wmc : Bool), w.ok (newCtx prov k wmc none none false ["dump-proofs"]).internal (.iterLimit (some n)) = true →
      ∃ c c', runAll w [.set (.iterLimit (some n))] (newCtx prov k wmc none none false ["dump-proofs"]) = some c ∧
        c.internal.log = [.tensors, .stdlib, .monitors ["dump-proofs"], .iterLimit (some n)] ∧ restore w c = some c' ∧ c'.internal.log = [] := by
  refine ⟨?_, ?_⟩
  · intro c c' h
    simp only [restore] at h
    cases hk : c.k with
    | none => rw [hk] at h; cases h
    | some k =>
      rw [hk] at h
      exact replay_program w _ _ _ h (by simp)
  · intro prov k n wmc hok
    let c0 := newCtx prov k wmc none none false ["dump-proofs"]
    refine ⟨{ c0 with internal := ⟨c0.internal.args, c0.internal.log ++ [.iterLimit (some n)]⟩ }, { c0 with internal := ⟨(prov, k, wmc), []⟩ }, ?_, rfl, rfl, rfl⟩
    simp only [runAll, setting, send, hok]
    rfl

/-- An action that always fails makes a replay fail. -/
theorem replay_fails (w : World) (a : Act) (hf : ∀ c, (call w a c).2 = false) : ∀ (l : List Act) (c : Ctx), a ∈ l → replay w l c = none
  | b :: l, c, h => by
    simp only [replay]
    rcases List.mem_cons.mp h with rfl | h
    · have := hf c
      cases hc : call w a c with
      | mk c1 x =>
        rw [hc] at this
        simp only at this
        subst this
        rfl
    · cases hc : call w b c with
      | mk c1 x =>
        cases x with
        | false => rfl
        | true => exact replay_fails w a hf l c1 h

/-- **C118**, exceptions: a program with an error is rejected, the context can be used further; *but* it can never be restored again, whatever is called after it. -/
theorem c118_failed_false (w : World) (bad : String) (hbad : ∀ i, w.ok i (.program bad) = false) (c : Ctx) :
    (call w (.program bad) c).2 = false ∧
    ∀ calls c', runAll w calls (call w (.program bad) c).1 = some c' →
      (∀ x ∈ calls, (∀ r b, x ≠ .set (.nonProb r b)) ∧ ∀ r m, x ≠ .set (.mapping r m)) → restore w c' = none := by
  refine ⟨hbad _, ?_⟩
  intro calls c' h hs
  have hh := run_history w calls _ c' h hs
  simp only [restore]
  cases c'.k with
  | none => rfl
  | some k =>
    apply replay_fails w (.program bad) (fun c => hbad _)
    rw [hh]
    simp [call, perform, send]

/-- A world with such a program, in which another program is taken. -/
example : ∃ w : World, (∀ i, w.ok i (.program "rel a(") = false) ∧
    (runAll w [.act (.program "rel a = {1}")] (call w (.program "rel a(") (newCtx "unit" 3 false none none false [])).1).isSome = true :=
  ⟨⟨fun _ op => match op with | .program s => s != "rel a(" | _ => true, fun _ _ => true, fun _ _ _ => true⟩, fun _ => rfl, rfl⟩

/-- The world in which everything is accepted. -/
def anyWorld : World := ⟨fun _ _ => true, fun _ _ => true, fun _ _ _ => true⟩

/-- **C118**, relations made non-probabilistic after facts were added: the fact `(0.5, (1,))`, here with 5 for 0.5, is restored as the fact `(0.5, (1,))` *without a tag*. -/
theorem c118_flags_false (fact : V) (hf : fact = .tup [.num 5, .tup [.num 1]]) : ∃ c c',
    runAll anyWorld [.act (.relation "r" "r(i32)" false none none false), .act (.facts "r" [fact] []), .set (.nonProb "r" true)]
      (newCtx "minmaxprob" 3 false none none true []) = some c ∧
    c.internal.log = [.tensors, .relation "r" "r(i32)", .facts "r" [⟨some (.num 5), none, .tup [.num 1]⟩]] ∧
    restore anyWorld c = some c' ∧ c'.internal.log = [.relation "r" "r(i32)", .facts "r" [⟨some .none, none, fact⟩]] := by
  subst hf
  exact ⟨_, _, rfl, rfl, rfl, rfl⟩

/-- **C118**, relations declared non-probabilistic and made probabilistic later: restored, they are non-probabilistic again, so that the facts `(tag, tuple)` added next are taken for tuples. -/
theorem c118_probabilistic_false (tag tuple : V) : ∃ c c' d d',
    runAll anyWorld [.act (.relation "r" "r(i32)" false none none true), .set (.nonProb "r" false)] (newCtx "minmaxprob" 3 false none none true []) = some c ∧
    restore anyWorld c = some c' ∧ runAll anyWorld [.act (.facts "r" [.tup [tag, tuple]] [])] c = some d ∧ runAll anyWorld [.act (.facts "r" [.tup [tag, tuple]] [])] c' = some d' ∧
    d.internal.log = [.tensors, .relation "r" "r(i32)", .facts "r" [⟨some tag, none, tuple⟩]] ∧
    d'.internal.log = [.relation "r" "r(i32)", .facts "r" [⟨some .none, none, .tup [tag, tuple]⟩]] :=
  ⟨_, _, _, _, rfl, rfl, rfl, rfl, rfl, rfl⟩

/-- **C118**, input mappings that were set after the declaration: the one of the declaration is restored. -/
theorem c118_mapping_false (m1 m2 : V) : ∃ c c',
    runAll anyWorld [.act (.relation "r" "r(i32)" false (some m1) none false), .set (.mapping "r" m2)] (newCtx "difftopkproofs" 3 false none none true []) = some c ∧
    c.mappings "r" = some m2 ∧ restore anyWorld c = some c' ∧ c'.mappings "r" = some m1 :=
  ⟨_, _, rfl, rfl, rfl, rfl⟩

theorem used_append (args : String × Nat × Bool) (log : List IOp) (op : IOp) :
    used ⟨args, log ++ [op]⟩ = (match op with | .provenance p k b => (p, k, b) | _ => used ⟨args, log⟩) := by
  simp only [used, List.foldl_append, List.foldl_cons, List.foldl_nil]
  cases op <;> rfl

/-- **C118**, copies: a copy has the program of the context and the requested provenance and `k`, and its fields say so; a copy without arguments is the context. *Partial*: `k` is given
if and only if a provenance is, and `wmc_with_disjunctions` is not. -/
theorem c118_clone_partial (w : World) (c : Ctx) :
    clone w none none none none c = some c ∧
    ∀ (p : String) (k : Nat) (mons : Option (List String)), w.ok c.internal (.provenance p k c.wmc) = true →
      ∃ c', clone w (some p) (some k) none mons c = some c' ∧ Agrees c' ∧ used c'.internal = (p, k, c.wmc) ∧ c'.history = c.history ∧
        c'.internal.log.filter isProgram = c.internal.log.filter isProgram ∧ c'.mappings = c.mappings ∧ c'.nonProb = c.nonProb ∧ c'.counter = c.counter := by
  refine ⟨rfl, ?_⟩
  intro p k mons hok
  cases mons with
  | none =>
    refine ⟨{ c with internal := ⟨c.internal.args, c.internal.log ++ [.provenance p k c.wmc]⟩, prov := p, k := some k }, ?_, ?_, ?_, rfl, ?_, rfl, rfl, rfl⟩
    · simp [clone, hok]
    · simp [Agrees, used_append]
    · simp [used_append]
    · simp [List.filter_append, isProgram]
  | some ms =>
    refine ⟨{ c with mons := ms, internal := ⟨c.internal.args, (c.internal.log ++ [.provenance p k c.wmc]) ++ [.monitors ms]⟩, prov := p, k := some k }, ?_, ?_, ?_, rfl, ?_, rfl, rfl, rfl⟩
    · simp [clone, hok]
    · have := used_append c.internal.args (c.internal.log ++ [.provenance p k c.wmc]) (.monitors ms)
      simp only [Agrees]
      rw [this]
      simp [used_append]
    · have := used_append c.internal.args (c.internal.log ++ [.provenance p k c.wmc]) (.monitors ms)
      rw [this]
      simp [used_append]
    · simp [List.filter_append, isProgram]

/-- A new context says what it uses. -/
example : Agrees (newCtx "topkproofs" 3 true none none false []) := ⟨rfl, rfl, rfl⟩

/-- **C118**, copies with a `k` but without a provenance: it is ignored. -/
theorem c118_clone_k_false (w : World) (c : Ctx) (k : Nat) : clone w none (some k) none none c = some c := rfl

/-- **C118**, copies with a provenance but without a `k`: the bindings keep the `k` of the context, *but* the copy cannot be restored, cannot be copied so again, and raises an exception
when it is evaluated with a `k` for training only. -/
theorem c118_clone_default_false (w : World) (c : Ctx) (p q : String) (k : Nat) (hk : c.k = some k) (hok : w.ok c.internal (.provenance p k c.wmc) = true) :
    ∃ c', clone w (some p) none none none c = some c' ∧ used c'.internal = (p, k, c.wmc) ∧ restore w c' = none ∧ clone w (some q) none none none c' = none ∧
      (c.trainK.isSome = true → c.testK = none → (setting w (.training false) c').2 = false) := by
  refine ⟨{ c with internal := ⟨c.internal.args, c.internal.log ++ [.provenance p k c.wmc]⟩, prov := p, k := none }, ?_, ?_, rfl, rfl, ?_⟩
  · simp [clone, hk, hok]
  · simp [used_append]
  · intro h1 h2
    simp [setting, kFor, h1, h2]

/-- **C118**, copies with `wmc_with_disjunctions`: the bindings use it, but the fields of the copy do not say so, and it is lost when the copy is restored or copied again. -/
theorem c118_clone_wmc_false (p : String) (k : Nat) : ∃ c c' c'',
    c = newCtx p k false none none true [] ∧ clone anyWorld (some p) (some k) (some true) none c = some c' ∧ (used c'.internal).2.2 = true ∧ ¬ Agrees c' ∧
    restore anyWorld c' = some c'' ∧ (used c''.internal).2.2 = false := by
  refine ⟨_, _, _, rfl, rfl, rfl, ?_, rfl, rfl⟩
  rintro ⟨_, _, h⟩
  cases h

/-- **C118**, training and testing: with both values of `k`, the bindings get that for training in training and that for testing otherwise; with one of them, the other is the `k` of the context. -/
theorem c118_training (w : World) (c : Ctx) (t u : Nat) (k : Nat) (hk : c.k = some k) :
    (c.trainK = some t → c.testK = some u → ∀ b, (setting w (.training b) c).1.internal.log = c.internal.log ++ [.setK (if b then t else u)]) ∧
    (c.trainK = some t → c.testK = none → ∀ b, (setting w (.training b) c).1.internal.log = c.internal.log ++ [.setK (if b then t else k)]) ∧
    (c.trainK = none → c.testK = some u → ∀ b, (setting w (.training b) c).1.internal.log = c.internal.log ++ [.setK (if b then k else u)]) ∧
    (c.trainK = none → c.testK = none → ∀ b, setting w (.training b) c = (c, true)) := by
  refine ⟨?_, ?_, ?_, ?_⟩ <;> intro h1 h2 b <;> cases b <;> simp [setting, kFor, h1, h2, hk, send]

end Scallop.CtxState
