import Verif.Proof.Context
import Verif.Props.Exec

/-!
# Contexts: the properties

C77: after any history of additions, reads and runs, a run computes what its program defines over all facts given so far. C78: running again changes
nothing. C79: facts are added all or not at all.
-/

namespace Scallop.Exec

open Scallop.Ram Scallop.Plan
open Scallop.Back (noExt)

variable {F T W I O : Type} [LinearOrder (Val F)] [LinearOrder W]

/-- **C77** (partial: earlier runs that succeeded were runs with incremental maintenance). A context has been made and used in any way: facts have been
added or refused, relations read, programs run, with or without success. A program is run, and the run succeeds. Then reading a visible relation of the
program, after reading any others, gives the tuples that the program defines, over the facts given since the context was made and those of the
program. Facts of programs whose runs failed may or may not be among them. -/
theorem c77_history_partial (c : Prov T W) (R : Runtime F T) (b : Boundary F T I O) (fuel : Nat) (P : Compiled F I) (hm : c.Uniform)
    (hR : P.toProgram.Discrete c R) (ok : P.toProgram.Ok R) (full : R.Full c P.toProgram) (s s' : Ctx F T I O) (lo hi : Given F I) (hs : Reach c b s lo hi)
    (h : s.execute c R b fuel (some P) = .done (s', true)) :
    ∃ G J, (lo.program P).le G ∧ G.le (hi.program P) ∧ StratModel (G.tuples b) (P.strata.map (ramLayer (R.setting c))) J ∧
      ∀ qs r, r ∈ P.relations → (P.decl r).hidden = false →
        ∃ l, ((s'.readAll b qs).read b r).2 = some l ∧ ∀ t, t ∈ l.map Prod.snd ↔ ∃ u, J r u ∧ b.extern u = some t := by
  obtain ⟨G, edb, db, l1, l2, hf, hsorted, hx, hidb⟩ := run_spec hs ok.storage h
  obtain ⟨J, hJ, _, hres⟩ := c76_execution c R P.toProgram hm hR ok full s.incremental fuel edb (fun _ => none) db hsorted (by simp) hx
  rw [hf] at hJ
  refine ⟨G, J, l1, l2, hJ, fun qs r hr hv => ?_⟩
  obtain ⟨l, hl, _, hc⟩ := hres r hr hv
  refine ⟨_, read_spec b qs s' r (IRel.fresh (.sorted l)) (by rw [hidb, hl]; rfl), fun t => ?_⟩
  simp only [IRel.answer, IRel.fresh, Bool.false_eq_true, if_false, List.nil_append, IRel.shown, Coll.elems, List.mem_map, List.mem_filterMap,
    Option.map_eq_some_iff]
  constructor
  · rintro ⟨_, ⟨e, he, t', ht, rfl⟩, rfl⟩
    exact ⟨e.tuple, (hc _).mp ⟨e, he, rfl⟩, ht⟩
  · rintro ⟨u, hu, ht⟩
    obtain ⟨e, he, rfl⟩ := (hc u).mpr hu
    exact ⟨_, ⟨e, he, t, ht, rfl⟩, rfl⟩

/-- **C78** (partial: with incremental maintenance, and tags whose addition does not count repetitions). A program that has been run is run again, after
reading any relations: the run succeeds, and all results are the same, with the same tags. -/
theorem c78_rerun_partial (c : Prov T W) (hc : Idempotent c) (R : Runtime F T) (b : Boundary F T I O) (fuel : Nat) (P : Compiled F I)
    (hst : ∀ r ∈ P.relations, (P.decl r).indexed = false) (s s' : Ctx F T I O) (lo hi : Given F I) (hs : Reach c b s lo hi) (hinc : s.incremental = true)
    (h : s.execute c R b fuel (some P) = .done (s', true)) (qs : List String) :
    ∃ s'', (s'.readAll b qs).execute c R b fuel (some P) = .done (s'', true) ∧ ∀ r, (s''.read b r).2 = (s'.read b r).2 := by
  obtain ⟨s'', h1, h2, h3⟩ := run_again hc hs hinc hst h qs
  exact ⟨s'', h1, fun r => by rw [read_value, read_value, h2, h3]⟩

/-- **C79** (partial: of contexts whose database does not check types itself, as those of the integration interface). Facts are accepted if and only if
the relation is declared and all of them are of its type; if they are refused then the context is as before. -/
theorem c79_atomic_partial (s : Ctx F T I O) (hs : s.edb.typeCheck = false) (type : Option (Tup (Val F) → Bool)) (r : String) (fs : List (Fact F I)) :
    ((s.addTyped type true r fs).2 = true ↔ ∃ ty, type = some ty ∧ ∀ f ∈ fs, ty f.2 = true) ∧
      ((s.addTyped type true r fs).2 = false → (s.addTyped type true r fs).1 = s) := by
  have ha : (s.addFacts r fs).2 = true := by
    unfold Ctx.addFacts Edb.addStatic Edb.accepts
    simp [hs]
  unfold Ctx.addTyped
  cases type with
  | none => simp
  | some ty =>
    simp only [if_true, Option.some.injEq, exists_eq_left']
    by_cases h : (fs.all (fun f => ty f.2)) = true
    · rw [if_pos h]
      exact ⟨⟨fun _ => by simpa using h, fun _ => ha⟩, fun h' => by rw [ha] at h'; cases h'⟩
    · rw [if_neg h]
      exact ⟨⟨fun h' => by simp at h', fun h' => absurd (by simpa using h') h⟩, fun _ => rfl⟩

/-! ## Examples -/

attribute [local instance] Val.order
set_option synthInstance.maxSize 1000

private abbrev i (n : Int) : Val Empty := .int .i32 n
private abbrev row (ns : List Int) : Tup (Val Empty) := flat (ns.map i)

/-- Tuples go in and out as they are; the tags are those given, or a default. -/
def plainBoundary (T : Type) (one : T) : Boundary Empty T T T := ⟨fun o => o.getD one, id, some, some⟩

/-- `reachProgram` with three nodes. -/
def reachCompiled : Compiled Empty Unit := ⟨reachProgram, fun r => if r = "node" then [[1], [2], [3]].map (fun l => (none, row l)) else []⟩

/-- A sequence of calls of a context; the relations read are collected. -/
private inductive Call (T : Type) where
  | add (r : String) (fs : List (List Int))
  | run (P : Compiled Empty T)
  | execute
  | interpret
  | read (r : String)

private def callAll (c : Prov T W) (one : T) : List (Call T) → Ctx Empty T T T → Option (List (Option (List (T × Tup (Val Empty)))))
  | [], _ => some []
  | .add r fs :: cs, s =>
    match s.addTyped none false r (fs.map (fun l => (none, row l))) with
    | (s', true) => callAll c one cs s'
    | (_, false) => none
  | .run P :: cs, s =>
    match s.execute c (plainRuntime T one) (plainBoundary T one) 20 (some P) with
    | .done (s', _) => callAll c one cs s'
    | _ => none
  | .execute :: cs, s =>
    match s.execute c (plainRuntime T one) (plainBoundary T one) 20 none with
    | .done (s', _) => callAll c one cs s'
    | _ => none
  | .interpret :: cs, s =>
    match s.interpret c (plainRuntime T one) (plainBoundary T one) 20 with
    | .done (s', _) => callAll c one cs s'
    | _ => none
  | .read r :: cs, s => (callAll c one cs (s.read (plainBoundary T one) r).1).map ((s.read (plainBoundary T one) r).2 :: ·)

private def units (l : List (List Int)) : Option (List (Unit × Tup (Val Empty))) := some (l.map (fun r => ((), row r)))

/-- A history that meets the hypotheses of `c77_history_partial`: facts are added, a program is run, a relation read, facts are added, the program is
run. The results are those over all facts. -/
example : callAll unitProv () [.add "edge" [[1, 2], [2, 3]], .run reachCompiled, .read "path", .add "edge" [[3, 1]], .run reachCompiled, .read "path", .read "far"]
    (Ctx.new true true) =
    some [units [[1, 2], [1, 3], [2, 3]], units [[1, 1], [1, 2], [1, 3], [2, 1], [2, 2], [2, 3], [3, 1], [3, 2], [3, 3]], units []] := by decide +kernel

/-- After a first addition and a run the context is one that `c77_history_partial` and `c78_rerun_partial` speak of, given exactly the facts that were added and
those of the program. -/
example : ∃ s, Reach unitProv (plainBoundary Unit ()) s ((Given.none.add "edge" [(none, row [1, 2])]).program reachCompiled)
      ((Given.none.add "edge" [(none, row [1, 2])]).program reachCompiled) ∧ s.incremental = true ∧
    unitProv.Uniform ∧ Idempotent unitProv ∧ reachCompiled.toProgram.Discrete unitProv (plainRuntime Unit ()) ∧
    reachCompiled.toProgram.Ok (plainRuntime Unit ()) ∧ (plainRuntime Unit ()).Full unitProv reachCompiled.toProgram ∧
    ∃ s', s.execute unitProv (plainRuntime Unit ()) (plainBoundary Unit ()) 20 (some reachCompiled) = .done (s', true) := by
  have h0 : ∃ s0, (Ctx.new true true : Ctx Empty Unit Unit Unit).addTyped none false "edge" [(none, row [1, 2])] = (s0, true) ∧
      ∃ s1, s0.execute unitProv (plainRuntime Unit ()) (plainBoundary Unit ()) 20 (some reachCompiled) = .done (s1, true) := by
    refine ⟨_, rfl, ?_⟩
    have hd : (match ((Ctx.new true true : Ctx Empty Unit Unit Unit).addTyped none false "edge" [(none, row [1, 2])]).1.execute unitProv (plainRuntime Unit ())
        (plainBoundary Unit ()) 20 (some reachCompiled) with | .done (_, ok) => ok | _ => false) = true := by decide +kernel
    split at hd
    · rename_i s1 ok h
      exact ⟨s1, by rw [show ok = true from hd] at h; exact h⟩
    · cases hd
  obtain ⟨s0, ha, s1, hx⟩ := h0
  have r1 := Reach.add (c := unitProv) (b := plainBoundary Unit ()) none false "edge" [(none, row [1, 2])] (Reach.new true true) ha
  have hinc0 : s0.incremental = true := by cases ha; rfl
  have hidem : Idempotent unitProv := ⟨fun _ _ _ => rfl, fun _ _ => rfl, fun _ => rfl⟩
  have r2 := Reach.run (plainRuntime Unit ()) 20 (some reachCompiled) r1 hinc0 (fun _ _ => rfl) hx
  obtain ⟨s2, h2, _⟩ := c78_rerun_partial unitProv hidem (plainRuntime Unit ()) (plainBoundary Unit ()) 20 reachCompiled (fun _ _ => rfl) s0 s1 _ _ r1 hinc0 hx []
  refine ⟨s1, r2, ?_, fun _ _ _ => rfl, hidem, reachProgram_discrete _ _ (fun _ _ => rfl), reachProgram_ok (), plainRuntime_full _ _ _ (fun _ => rfl), s2, h2⟩
  rcases execute_cases hx with ⟨h, _⟩ | ⟨_, e, e1, db, _, _, _, rfl⟩
  · cases h
  · exact hinc0

/-! ## Where the properties fail -/

/-- **C77 fails for contexts made with the default options**: facts that were added are gone in the second run, and with them what follows from them. -/
theorem c77_refuted_default :
    callAll unitProv () [.add "edge" [[1, 2]], .run reachCompiled, .read "path", .run reachCompiled, .read "path", .read "edge"] (Ctx.new false true) =
      some [units [[1, 2]], units [], units []] := by decide +kernel

/-- A program with one more node. -/
def reachMore : Compiled Empty Unit := ⟨reachProgram, fun r => if r = "node" then [[1], [2], [3], [4]].map (fun l => (none, row l)) else []⟩

/-- **A failed run loses the results of the runs before it**: a program with more facts for a relation is refused, and after that there is no result to
read. If the accepted program has been run twice then the larger one is accepted. -/
theorem c77_refuted_failed :
    callAll unitProv () [.add "edge" [[1, 2]], .run reachCompiled, .read "path", .run reachMore, .read "path"] (Ctx.new true true) =
      some [units [[1, 2]], none] ∧
    callAll unitProv () [.add "edge" [[1, 2]], .run reachCompiled, .run reachCompiled, .run reachMore, .read "path"] (Ctx.new true true) =
      some [units [[1, 2]]] := by decide +kernel

/-- One relation is a copy of another one. -/
def copyCompiled : Compiled Empty Unit :=
  ⟨⟨[⟨["edge"], []⟩, ⟨["out"], [⟨"out", .leaf (.rel "edge")⟩]⟩], fun r => ⟨false, r = "edge", false, none, false⟩⟩, fun _ => []⟩

/-- **C77 fails for `execute` and for the interpreter**: the second run keeps the results of the first, in spite of new facts. If the program has a hidden relation
that is computed together with a visible one, then the second run of the interpreter panics: it finds only one of the two. -/
theorem c77_refuted_execute :
    callAll unitProv () [.add "edge" [[1, 2]], .execute, .read "path", .add "edge" [[2, 3]], .execute, .read "path"]
      (Ctx.withProgram true true false (fun _ => none) reachCompiled) = some [units [[1, 2]], units [[1, 2]]] ∧
    callAll unitProv () [.add "edge" [[1, 2]], .interpret, .read "out", .add "edge" [[2, 3]], .interpret, .read "out"]
      (Ctx.withProgram false true false (fun _ => none) copyCompiled) = some [units [[1, 2]], units [[1, 2]]] ∧
    callAll unitProv () [.add "edge" [[1, 2]], .interpret, .interpret] (Ctx.withProgram false true false (fun _ => none) reachCompiled) = none := by decide +kernel

/-- **C79 fails for contexts that check types in the database**: one fact is refused, and the result of the relation is gone. -/
theorem c79_refuted :
    let ty : String → Option (Tup (Val Empty) → Bool) := fun r => if r = "edge" ∨ r = "path" then some (fun t => decide (t.at? 1 ≠ none)) else none
    (match (Ctx.withProgram true true true ty reachCompiled).addFacts "edge" [(none, row [1, 2])] with
      | (s, true) =>
        match s.execute unitProv (plainRuntime Unit ()) (plainBoundary Unit ()) 20 none with
        | .done (s1, true) => some ((s1.read (plainBoundary Unit ()) "path").2, (s1.addFacts "path" [(none, row [7])]).2,
            ((s1.addFacts "path" [(none, row [7])]).1.read (plainBoundary Unit ()) "path").2)
        | _ => none
      | _ => none) = some (units [[1, 2]], false, none) := by decide +kernel

/-- Facts with two columns are accepted for a relation of that type, others are not; the hypothesis is met by new contexts. -/
example : (Ctx.new true true : Ctx Empty Unit Unit Unit).edb.typeCheck = false ∧
    ((Ctx.new true true : Ctx Empty Unit Unit Unit).addTyped (some (fun t => decide (t.at? 1 ≠ none))) true "edge" [(none, row [1, 2])]).2 = true ∧
    ((Ctx.new true true : Ctx Empty Unit Unit Unit).addTyped (some (fun t => decide (t.at? 1 ≠ none))) true "edge" [(none, row [1, 2]), (none, row [1])]).2 = false := by
  decide +kernel

/-- The same with natural numbers as tags. -/
def reachCounted : Compiled Empty Nat := ⟨reachProgram, fun r => if r = "edge" then [(none, row [1, 2])] else []⟩

/-- **C78 fails for tags that count**: the facts of a program are added again each time it is run. -/
theorem c78_refuted :
    callAll naturalProv 1 [.run reachCounted, .read "path", .run reachCounted, .read "path", .run reachCounted, .read "path"] (Ctx.new true true) =
      some [some [(1, row [1, 2])], some [(3, row [1, 2])], some [(6, row [1, 2])]] := by decide +kernel

end Scallop.Exec
