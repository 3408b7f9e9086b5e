import Verif.Proof.Monitored
import Verif.Props.Context

/-!
# C119: Monitors only observe
-/

namespace Scallop

variable {V T W ι κ : Type*} [LinearOrder V] [LinearOrder W] [Fintype ι] [DecidableEq ι]

/-- **C119**, the loop of a stratum: with a monitor it does the same as without. *Partial*: no entities are created in it (`c119_entities_false`). -/
theorem c119_loop_partial (c : Prov T W) (p : Stratum V T ι κ) (ents : IterState V T ι → List (ι × List (Tup V))) (h : ∀ s, ents s = []) (fuel : Nat) :
    (p.runM c fuel).1 = runLoopE c p ents fuel (p.init c) ∧ (p.runM c fuel).1 = p.run c fuel :=
  ⟨by rw [runLoopE_eq c p ents h]; exact runLoopM_eq c p fuel _, runLoopM_eq c p fuel _⟩

/-- **C119**, what a monitor sees of a loop: all iterations in order, each once, and then why the loop stopped. -/
theorem c119_events (c : Prov T W) (p : Stratum V T ι κ) (fuel : Nat) (s : IterState V T ι) (es : List LoopEvent) (h : p.runM c fuel = (.done s, es)) :
    ∃ e, es = (List.range s.num).map .iteration ++ [e] ∧ Reason c p s e := by
  obtain ⟨_, e, h1, h2⟩ := runLoopM_events c p fuel (p.init c) s es h
  exact ⟨e, by rw [h1, List.range_eq_range']; rfl, h2⟩

/-- **C119**, goals: the monitors of a context are never told that the loop stopped because all goal relations were derived, *although* a monitor that is given to the run is. -/
theorem c119_goal_false (c : Prov T W) (p : Stratum V T ι κ) (fuel : Nat) (s : IterState V T ι) (h : (p.runM c fuel) = (.done s, (p.runM c fuel).2))
    (hg : LoopEvent.goal ∈ (p.runM c fuel).2) : forwarded (p.runM c fuel).2 = (List.range s.num).map .iteration := by
  obtain ⟨e, h1, h2⟩ := c119_events c p fuel s _ h
  have he : e = .goal := by
    rw [h1] at hg
    rcases List.mem_append.mp hg with hg | hg
    · simp at hg
    · exact (List.mem_singleton.mp hg).symm
  rw [h1, he, forwarded, List.filter_append]
  simp only [List.filter_cons, List.filter_nil, ne_eq, not_true_eq_false, decide_false, Bool.false_eq_true, if_false, List.append_nil]
  rw [List.filter_eq_self]
  intro a ha
  obtain ⟨n, _, rfl⟩ := List.mem_map.mp ha
  simp

/-- A relation that has a fact from the beginning. -/
def oneFact : Stratum Nat Unit Unit Empty := ⟨Empty.elim, fun _ => some [⟨.val 1, ()⟩], [], fun _ => .lfp, [()], none, true, false⟩

/-- The hypotheses of `c119_goal_false` are met. -/
example : (match (oneFact.runM unitProv 2).1 with | .done s => s.num == 0 | _ => false) = true ∧ (oneFact.runM unitProv 2).2 = [.goal] := by decide +kernel

/-- A loop in whose first turn an entity is created. -/
def oneEntity (s : IterState Nat Unit Unit) : List (Unit × List (Tup Nat)) := if s.num = 0 then [((), [.val 7])] else []

/-- The number of facts of the relation after a loop. -/
def factsAfter (r : RunResult Nat Unit Unit) : Option (Option (List (Tup Nat))) :=
  match r with
  | .done s => some (((s.rel ()).complete unitProv).map (List.map Elem.tuple))
  | _ => none

/-- **C119**, entities: one that is created in a loop becomes a fact of its relation, *but* not with a monitor. -/
theorem c119_entities_false (p : Stratum Nat Unit Unit Empty) (hp : p = { oneFact with stopAtGoal := false }) :
    factsAfter (runLoopE unitProv p oneEntity 5 (p.init unitProv)) = some (some [.val 1, .val 7]) ∧
    factsAfter (p.runM unitProv 5).1 = some (some [.val 1]) := by
  subst hp
  decide +kernel

end Scallop

namespace Scallop.Exec

open Scallop.Ram Scallop.Plan

section
variable {F T W I O : Type} [LinearOrder (Val F)] [LinearOrder W]

/-- **C119**, execution: with a monitor a context does the same as without, for every program, all facts and results it has. *Partial*: no relation has a scheduler of its own
(`c119_scheduler_false`); without incremental maintenance every stratum has a relation that is visible or read (`c119_outputs_false`); without a new program the facts of the program are accepted. -/
theorem c119_execution_partial (c : Prov T W) (R : Runtime F T) (b : Boundary F T I O) (fuel : Nat) (new : Option (Compiled F I)) (s : Ctx F T I O)
    (hsched : NoSchedulers (new.getD s.program).toProgram) (hu : s.incremental = true ∨ AllUsed (new.getD s.program).toProgram)
    (hf : new.isSome = true ∨ (s.edb.populate (new.getD s.program) (new.getD s.program).relations).2 = true) :
    s.executeM c R b fuel new = s.execute c R b fuel new := by
  unfold Ctx.executeM Ctx.execute
  simp only
  cases hp : s.edb.populate (new.getD s.program) (new.getD s.program).relations with
  | mk e x =>
    cases x with
    | false =>
      rw [hp] at hf
      rcases hf with h | h
      · simp [h]
      · cases h
    | true =>
      simp only [strataResultsM_eq c R _ hsched _ hu]
      rfl

/-- **C119**, schedulers: with a monitor, the schedulers declared for relations make no difference. -/
theorem c119_schedulers_ignored (c : Prov T W) (R : Runtime F T) (P Q : Program F) (h : SameButSchedulers P Q) (inc : Bool) (fuel : Nat) (edb idb : Db F T) :
    strataResultsM c R P inc fuel edb idb = strataResultsM c R Q inc fuel edb idb := by
  have key : ∀ P : Program F, strataResultsM c R P inc fuel edb idb = strataResultsM c R P.plain inc fuel edb idb := by
    intro P
    have : ∀ (sts : List (Ram.Stratum F)) (i : Nat) (idb : Db F T), execStrataM c R P inc fuel edb i sts idb = execStrataM c R P.plain inc fuel edb i sts idb := by
      intro sts
      induction sts with
      | nil => intro i idb; rfl
      | cons st sts ih =>
        intro i idb
        unfold execStrataM
        rw [show execStratumM c R P inc fuel st edb idb = execStratumM c R P.plain inc fuel st edb idb from execStratumM_plain c R P inc fuel st edb idb]
        congr 1
        funext rs
        exact ih _ _
    unfold strataResultsM
    split
    · rename_i hc
      rw [if_pos (show (P.plain.strata.all fun st => (stratumDeps st).all fun r => decide (r ∈ P.plain.relations)) = true from hc)]
      exact this _ _ _
    · rename_i hc
      rw [if_neg (show ¬ (P.plain.strata.all fun st => (stratumDeps st).all fun r => decide (r ∈ P.plain.relations)) = true from hc)]
  have hPQ : P.plain = Q.plain := by
    unfold Program.plain
    rw [h.1]
    congr 1
    funext r
    obtain ⟨h1, h2, h3, h4⟩ := h.2 r
    rw [h1, h2, h3, h4]
  rw [key P, key Q, hPQ]

omit [LinearOrder (Val F)] [LinearOrder W] in
/-- **C119**, reading: a relation that was computed and is not empty, or was read before, is read the same with a monitor as without, and the monitor is shown its facts, in order, between the two
events of the relation. *Partial*: other relations cannot be read (`c119_read_false`). -/
theorem c119_read_partial (b : Boundary F T I O) (s : Ctx F T I O) (r : String) (x : IRel F T O) (hx : s.idb r = some x) (h : x.recovered = true ∨ x.internal.elems ≠ []) :
    s.readM b r = s.read b r ∧
    (x.recovered = false → ∃ l : List (Tup (Val F) × T × O), (s.recoverM b r).2 = [.start r] ++ l.map (fun q => .fact q.1 q.2.1 q.2.2) ++ [.finish r] ∧
      (x.facts = [] → (s.read b r).2 = some (l.map (fun q => (q.2.2, q.1))))) := by
  have hrec : ∀ d, (x.recoverM b d).1 = x.recover b d := fun d => recoverM_eq b d x h
  refine ⟨?_, ?_⟩
  · unfold Ctx.readM Ctx.read Ctx.recoverM Ctx.recover
    simp only [hx, hrec]
  · intro hr
    have hne : x.internal.elems.isEmpty = false := by
      rcases h with h | h
      · rw [hr] at h; cases h
      · simpa using h
    refine ⟨x.internal.elems.filterMap (fun e => (b.extern e.tuple).map (fun t => (t, e.tag, b.recover e.tag))), ?_, ?_⟩
    · simp only [Ctx.recoverM, hx, IRel.recoverM, hr, hne, IRel.observed, List.map_filterMap]
      simp only [Bool.not_false, Bool.and_self, if_true]
      congr 3
      funext e
      cases b.extern e.tuple <;> rfl
    · intro hf
      simp only [Ctx.read, Ctx.recover, hx, if_true, IRel.recover, hr, hne, Option.bind_some, hf, List.nil_append, IRel.shown, List.map_filterMap]
      simp only [Bool.false_eq_true, if_false, if_true]
      congr 2
      funext e
      cases b.extern e.tuple <;> rfl

omit [LinearOrder (Val F)] [LinearOrder W] in
/-- **C119**, reading: without a monitor, relations that are empty and relations with given facts that were not computed can be read; *but* not with a monitor. -/
theorem c119_read_false (b : Boundary F T I O) (s : Ctx F T I O) (r : String) :
    (∀ a, s.idb r = some (IRel.fresh a) → a.elems = [] → (s.read b r).2 = some [] ∧ (s.readM b r).2 = none) ∧
    (∀ e, s.idb r = none → s.edb.get r = some e → (s.read b r).2 = some (IRel.shown b e.internal.elems) ∧ (s.readM b r).2 = none) := by
  refine ⟨?_, ?_⟩
  · intro a ha he
    simp [Ctx.read, Ctx.recover, Ctx.readM, Ctx.recoverM, ha, IRel.fresh, IRel.recover, IRel.recoverM, he]
  · intro e hn he
    simp [Ctx.read, Ctx.recover, Ctx.readM, Ctx.recoverM, hn, he]

/-- **C119**, the interpreter: it does the same with a monitor as without. *Partial*: as for execution, and no computed relation is empty (`c119_interpret_false`). -/
theorem c119_interpret_partial (c : Prov T W) (R : Runtime F T) (b : Boundary F T I O) (fuel : Nat) (s : Ctx F T I O)
    (hsched : NoSchedulers s.program.toProgram) (hu : s.incremental = true ∨ AllUsed s.program.toProgram)
    (hf : (s.edb.populate s.program s.program.relations).2 = true)
    (he : ∀ q, s.execute c R b fuel none = .done (q, true) → ∀ r x, q.idb r = some x → x.recovered = true ∨ x.internal.elems ≠ []) :
    s.interpretM c R b fuel = s.interpret c R b fuel := by
  unfold Ctx.interpretM Ctx.interpret
  rw [c119_execution_partial c R b fuel none s hsched hu (.inr hf)]
  cases hx : s.execute c R b fuel none with
  | outOfFuel => rfl
  | panic => rfl
  | done q =>
    obtain ⟨q, ok⟩ := q
    cases ok with
    | false => rfl
    | true =>
      simp only [Run.bind, if_true]
      congr 3
      funext r
      split
      · rfl
      · cases hr : q.idb r with
        | none => rfl
        | some x => simp only [Option.map_some, recoverM_eq b true x (he q hx r x hr)]

/-- **C119**, the interpreter: a visible relation that is computed and empty has a result, no facts, *but* no result with a monitor. -/
theorem c119_interpret_false (c : Prov T W) (R : Runtime F T) (b : Boundary F T I O) (fuel : Nat) (s q : Ctx F T I O)
    (hsched : NoSchedulers s.program.toProgram) (hu : s.incremental = true ∨ AllUsed s.program.toProgram)
    (hf : (s.edb.populate s.program s.program.relations).2 = true) (hq : s.execute c R b fuel none = .done (q, true))
    {r : String} (hv : (q.program.decl r).hidden = false) (hr : r ∈ q.program.relations) {a : Coll F T} (ha : q.idb r = some (IRel.fresh a)) (he : a.elems = []) :
    ∃ s1 s2 x1 x2, s.interpret c R b fuel = .done (s1, true) ∧ s.interpretM c R b fuel = .done (s2, true) ∧ s1.idb r = some x1 ∧ s2.idb r = some x2 ∧
      x1.recovered = true ∧ x1.facts = [] ∧ x2.recovered = false := by
  refine ⟨_, _, (IRel.fresh a).recover b true, ((IRel.fresh a).recoverM b true).1, by unfold Ctx.interpret; rw [hq]; rfl,
    by unfold Ctx.interpretM; rw [c119_execution_partial c R b fuel none s hsched hu (.inr hf), hq]; rfl, ?_, ?_, ?_, ?_, ?_⟩
  · simp [hv, hr, ha]
  · simp [hv, hr, ha]
  · simp [IRel.recover, IRel.fresh, he]
  · simp [IRel.recover, IRel.fresh, he]
  · simp [IRel.recoverM, IRel.fresh, he]

end

/-! ## Examples -/

attribute [local instance] Val.order
set_option synthInstance.maxSize 1000

private abbrev i (n : Int) : Val Empty := .int .i32 n
private abbrev row (ns : List Int) : Tup (Val Empty) := flat (ns.map i)

/-- The hypotheses of `c119_execution_partial` are met by a program with four strata. -/
example : NoSchedulers reachProgram ∧ AllUsed reachProgram := by
  refine ⟨fun _ _ => rfl, ?_⟩
  intro st hst
  simp only [reachProgram, List.mem_cons, List.not_mem_nil, or_false] at hst
  rcases hst with rfl | rfl | rfl | rfl
  · exact ⟨"edge", by simp, .inl (by decide)⟩
  · exact ⟨"node", by simp, .inl (by decide)⟩
  · exact ⟨"path", by simp, .inl (by decide)⟩
  · exact ⟨"far", by simp, .inl (by decide)⟩

/-- Two nodes in a cycle. -/
def cycleEdb : Db Empty Unit := fun r =>
  if r = "edge" then some (.sorted ([[1, 2], [2, 1]].map (fun l => ⟨row l, ()⟩)))
  else if r = "node" then some (.sorted []) else none

/-- Reachability, depth first. -/
def depthFirst : Program Empty := ⟨reachProgram.strata, fun r => { reachProgram.decl r with sched := if r = "path" then some .dfs else none }⟩

private def pathsOf (r : Run (Db Empty Unit)) : Option (List (Tup (Val Empty))) :=
  match r with
  | .done d => (d "path").map (fun a => a.elems.map Elem.tuple)
  | _ => none

/-- **C119**, schedulers: a program whose relation is to be computed depth first, with at most two iterations, has other results with a monitor. -/
theorem c119_scheduler_false (R : Runtime Empty Unit) (hR : R = { plainRuntime Unit () with iterLimit := some 2 }) :
    pathsOf (Ctx.strataResults unitProv R depthFirst false 20 cycleEdb (fun _ => none)) = some ([[1, 1], [1, 2], [2, 1]].map row) ∧
    pathsOf (strataResultsM unitProv R depthFirst false 20 cycleEdb (fun _ => none)) = some ([[1, 1], [1, 2], [2, 1], [2, 2]].map row) := by
  subst hR
  decide +kernel

/-- A context of the program that copies a relation, with one fact or without facts. -/
private def copying (fs : List (Fact Empty Unit)) : Ctx Empty Unit Unit Unit := ((Ctx.withProgram false true false (fun _ => none) copyCompiled).addTyped none false "edge" fs).1

/-- The computed relation of that context: whether it is recovered, and whether it is empty. -/
private def outOf (r : Run (Ctx Empty Unit Unit Unit × Bool)) : Option (Option (Bool × Bool)) :=
  match r with
  | .done (q, true) => some ((q.idb "out").map (fun x => (x.recovered, x.internal.elems.isEmpty && x.facts.isEmpty)))
  | _ => none

/-- The hypotheses of `c119_interpret_partial` and of `c119_interpret_false` are met, with one fact and with none. -/
example : NoSchedulers copyCompiled.toProgram ∧ AllUsed copyCompiled.toProgram ∧
    (∀ fs, (copying fs).program = copyCompiled) ∧
    ((copying []).edb.populate (copying []).program (copying []).program.relations).2 = true ∧
    outOf ((copying [(none, row [1, 2])]).execute unitProv (plainRuntime Unit ()) (plainBoundary Unit ()) 20 none) = some (some (false, false)) ∧
    outOf ((copying []).execute unitProv (plainRuntime Unit ()) (plainBoundary Unit ()) 20 none) = some (some (false, true)) ∧
    outOf ((copying []).interpret unitProv (plainRuntime Unit ()) (plainBoundary Unit ()) 20) = some (some (true, true)) ∧
    outOf ((copying []).interpretM unitProv (plainRuntime Unit ()) (plainBoundary Unit ()) 20) = some (some (false, true)) := by
  refine ⟨fun _ _ => rfl, ?_, ?_, by decide +kernel, by decide +kernel, by decide +kernel, by decide +kernel, by decide +kernel⟩
  · intro st hst
    simp only [copyCompiled, List.mem_cons, List.not_mem_nil, or_false] at hst
    rcases hst with rfl | rfl
    · exact ⟨"edge", by simp, .inl rfl⟩
    · exact ⟨"out", by simp, .inl rfl⟩
  · intro fs
    unfold copying Ctx.addTyped Ctx.addFacts
    simp only [Bool.false_eq_true, if_false]
    split <;> split <;> rfl

/-- A hidden relation that no stratum reads. -/
def unread : Program Empty := ⟨[⟨["edge"], []⟩, ⟨["copy"], [⟨"copy", .leaf (.rel "edge")⟩]⟩], fun r => ⟨r = "copy", r = "edge", false, none, false⟩⟩

/-- **C119**, outputs: a program with a hidden relation that is not read is executed, *but* is a panic with a monitor, without incremental maintenance. -/
theorem c119_outputs_false (inc : Bool) :
    (match Ctx.strataResults unitProv (plainRuntime Unit ()) unread inc 20 cycleEdb (fun _ => none) with | .done _ => true | _ => false) = true ∧
    (match strataResultsM unitProv (plainRuntime Unit ()) unread inc 20 cycleEdb (fun _ => none) with | .panic => true | _ => false) = !inc := by
  cases inc <;> decide +kernel

end Scallop.Exec
