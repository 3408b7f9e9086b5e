import Verif.Proof.ExecRun
import Verif.Model.ValOrder
import Verif.Props.Strata

/-!
# Executing a program: the properties

C76: executing a program leaves in every visible relation what its rules define, over the facts of the extensional database.
-/

namespace Scallop.Exec

open Scallop.Ram Scallop.Plan
open Scallop.Back (noExt)

variable {F T W : Type} [LinearOrder (Val F)] [LinearOrder W]

/-- **C76.** A program that meets the conditions of `Program.Ok` is executed, with or without incremental maintenance, starting without results or with
results that already are what the rules define. If the execution ends, then every relation that is not hidden holds exactly the tuples that the program
defines: those of the model of its strata over the facts of the extensional database. There is such a model, and it is the only one. -/
theorem c76_execution (c : Prov T W) (R : Runtime F T) (P : Program F) (hm : c.Uniform) (hR : P.Discrete c R) (ok : P.Ok R) (full : R.Full c P)
    (incremental : Bool) (fuel : Nat) (edb idb idb' : Db F T) (hedb : ∀ r a, edb r = some a → ∃ l, a = .sorted l ∧ Sorted l)
    (hidb : ∀ J, StratModel (edbFacts edb) (P.strata.map (ramLayer (R.setting c))) J → ∀ r a, idb r = some a → ∃ l, a = .sorted l ∧ Contents l (J r))
    (h : executeFrom c R P incremental fuel edb idb = .done idb') :
    ∃ J, StratModel (edbFacts edb) (P.strata.map (ramLayer (R.setting c))) J ∧
      (∀ J', StratModel (edbFacts edb) (P.strata.map (ramLayer (R.setting c))) J' → ∀ r ∈ P.relations, ∀ t, J' r t ↔ J r t) ∧
      ∀ r ∈ P.relations, (P.decl r).hidden = false → ∃ l, idb' r = some (.sorted l) ∧ Contents l (J r) := by
  have hl := layers_layered (c := c) ok
  have hJ := model_exists (facts := edbFacts edb) (J := fun _ _ => False) hl
  refine ⟨_, hJ, ?_, ?_⟩
  · intro J' hJ' r hr t
    obtain ⟨st, hst, hr⟩ := List.mem_flatMap.mp hr
    exact model_unique hl hJ' hJ (by simp) _ (List.mem_map.mpr ⟨st, hst, rfl⟩) r hr t
  · exact fun r hr hv => executeFrom_spec hm hR ok full hedb hJ (hidb _ hJ) h hr hv

/-! ## An example -/

attribute [local instance] Val.order

private abbrev i (n : Int) : Val Empty := .int .i32 n
private abbrev row (ns : List Int) : Tup (Val Empty) := flat (ns.map i)

/-- No foreign predicates, no aggregates. -/
def plainRuntime (T : Type) (one : T) : Runtime Empty T := ⟨noExt, fun _ => none, fun _ => none, fun _ _ => one, .lfp, none, false, false⟩

/-- Reachability and what cannot be reached, as it is compiled: `path` is joined with `edge` over the permuted copy of `path`, and the pairs of nodes are
kept in a relation of their own. -/
def reachProgram : Program Empty where
  strata :=
    [⟨["edge"], []⟩, ⟨["node"], []⟩,
      ⟨["path", "path#perm#1,0"],
        [⟨"path", .leaf (.rel "edge")⟩,
          ⟨"path#perm#1,0", .project (.leaf (.rel "path")) (.tuple [.access [1], .access [0]])⟩,
          ⟨"path", .project (.bin .join (.leaf (.rel "path#perm#1,0")) (.leaf (.rel "edge"))) (.tuple [.access [1], .access [2]])⟩]⟩,
      ⟨["#temp#0", "far"],
        [⟨"#temp#0", .project (.bin .product (.leaf (.rel "node")) (.leaf (.rel "node"))) (.tuple [.access [0, 0], .access [1, 0]])⟩,
          ⟨"far", .bin .difference (.leaf (.rel "#temp#0")) (.leaf (.rel "path"))⟩]⟩]
  decl := fun r => ⟨r = "path#perm#1,0" || r = "#temp#0", r = "edge" || r = "node", false, none, false⟩

/-- Three nodes in a line, and a cycle of two others. -/
def reachEdb : Db Empty Unit := fun r =>
  if r = "edge" then some (.sorted ([[1, 2], [2, 3], [4, 5], [5, 4]].map (fun l => ⟨row l, ()⟩)))
  else if r = "node" then some (.sorted ([[1], [2], [3]].map (fun l => ⟨row l, ()⟩)))
  else none

/-- The tuples of a relation after an execution. -/
private def rowsOf (res : Run (Db Empty T)) (r : String) : Option (List (Tup (Val Empty))) :=
  match res with
  | .done d => (d r).map (fun a => a.elems.map Elem.tuple)
  | _ => none

private theorem reach_cases {k : Nat} {st} (h : reachProgram.strata[k]? = some st) :
    (k = 0 ∧ st = ⟨["edge"], []⟩) ∨ (k = 1 ∧ st = ⟨["node"], []⟩) ∨ (k = 2 ∧ st = reachProgram.strata[2]) ∨ (k = 3 ∧ st = reachProgram.strata[3]) := by
  match k with
  | 0 => left; simpa [reachProgram, eq_comm] using h
  | 1 => right; left; simpa [reachProgram, eq_comm] using h
  | 2 => right; right; left; simpa [reachProgram, eq_comm] using h
  | 3 => right; right; right; simpa [reachProgram, eq_comm] using h
  | k + 4 => simp [reachProgram] at h

theorem reachProgram_ok {T : Type} (one : T) : reachProgram.Ok (plainRuntime T one) := by
  refine ⟨?_, ?_, ?_, ?_, ?_⟩
  · intro j k st st' r hj hk h1 h2
    rcases reach_cases hj with ⟨rfl, rfl⟩ | ⟨rfl, rfl⟩ | ⟨rfl, rfl⟩ | ⟨rfl, rfl⟩ <;> rcases reach_cases hk with ⟨rfl, rfl⟩ | ⟨rfl, rfl⟩ | ⟨rfl, rfl⟩ | ⟨rfl, rfl⟩ <;>
      first
      | rfl
      | (simp [reachProgram] at h1 h2; rcases h1 with rfl | rfl <;> revert h2 <;> decide)
      | (simp [reachProgram] at h1 h2; subst h1; revert h2; decide)
  · intro st hst u hu
    obtain ⟨k, hk⟩ := List.mem_iff_getElem?.mp hst
    rcases reach_cases hk with ⟨_, rfl⟩ | ⟨_, rfl⟩ | ⟨_, rfl⟩ | ⟨_, rfl⟩ <;> simp [reachProgram] at hu
    · rcases hu with rfl | rfl | rfl <;> decide
    · rcases hu with rfl | rfl <;> decide
  · intro k st u hk hu r hr
    have : ∃ j : Fin 4, j.1 ≤ k ∧ r ∈ (reachProgram.strata[j.1]'j.2).relations := by
      rcases reach_cases hk with ⟨rfl, rfl⟩ | ⟨rfl, rfl⟩ | ⟨rfl, rfl⟩ | ⟨rfl, rfl⟩ <;> simp [reachProgram] at hu
      · rcases hu with rfl | rfl | rfl <;> simp [flowDeps] at hr
        · subst hr; decide
        · subst hr; decide
        · rcases hr with rfl | rfl <;> decide
      · rcases hu with rfl | rfl <;> simp [flowDeps] at hr
        · subst hr; decide
        · rcases hr with rfl | rfl <;> decide
    obtain ⟨j, hj, hr⟩ := this
    exact ⟨j.1, _, hj, List.getElem?_eq_getElem j.2, hr⟩
  · intro st hst u hu
    obtain ⟨k, hk⟩ := List.mem_iff_getElem?.mp hst
    rcases reach_cases hk with ⟨_, rfl⟩ | ⟨_, rfl⟩ | ⟨_, rfl⟩ | ⟨_, rfl⟩ <;> simp [reachProgram] at hu
    · rcases hu with rfl | rfl | rfl <;> simp [Stratified, WellSorted, ForeignOk, Positive, OutSortedLe]
    · rcases hu with rfl | rfl <;> simp [reachProgram, Stratified, Static, WellSorted, ForeignOk, Positive, OutSorted, OutSortedLe]
  · intro r _
    rfl

/-- Negation removes tuples: unit tags cannot be subtracted. -/
theorem reachProgram_discrete {T W : Type} (c : Prov T W) (R : Runtime Empty T) (hc : ∀ a b, c.minus a b = none) : reachProgram.Discrete c R := by
  intro st hst u hu
  obtain ⟨k, hk⟩ := List.mem_iff_getElem?.mp hst
  rcases reach_cases hk with ⟨_, rfl⟩ | ⟨_, rfl⟩ | ⟨_, rfl⟩ | ⟨_, rfl⟩ <;> simp [reachProgram] at hu
  · rcases hu with rfl | rfl | rfl <;> simp [Exec.Discrete]
  · rcases hu with rfl | rfl <;> simp [Exec.Discrete, hc]

theorem plainRuntime_full {T W : Type} (c : Prov T W) (one : T) (P : Program Empty) (hP : ∀ r, (P.decl r).sched = none) : (plainRuntime T one).Full c P :=
  { keep := fun h => absurd h (by simp [plainRuntime])
    sched := fun r _ => by rw [hP]; simp [plainRuntime]
    limit := rfl
    goal := rfl }

/-- The hypotheses of `c76_execution` are met, and the execution ends with the expected relations, in both modes. -/
example : unitProv.Uniform ∧ reachProgram.Discrete unitProv (plainRuntime Unit ()) ∧ reachProgram.Ok (plainRuntime Unit ()) ∧
    (plainRuntime Unit ()).Full unitProv reachProgram ∧ (∀ r a, reachEdb r = some a → ∃ l, a = .sorted l ∧ Sorted l) ∧
    ∀ b, (["edge", "path", "far"].map (rowsOf (executeFrom unitProv (plainRuntime Unit ()) reachProgram b 20 reachEdb (fun _ => none)))) =
      [some ([[1, 2], [2, 3], [4, 5], [5, 4]].map row), some ([[1, 2], [1, 3], [2, 3], [4, 4], [4, 5], [5, 4], [5, 5]].map row),
        some ([[1, 1], [2, 1], [2, 2], [3, 1], [3, 2], [3, 3]].map row)] := by
  refine ⟨fun _ _ _ => rfl, reachProgram_discrete _ _ (fun _ _ => rfl), reachProgram_ok (), plainRuntime_full _ _ _ (fun _ => rfl), ?_, by decide +kernel⟩
  intro r a h
  unfold reachEdb at h
  split at h
  · cases h
    exact ⟨_, rfl, by unfold Sorted; decide +kernel⟩
  · split at h
    · cases h
      exact ⟨_, rfl, by unfold Sorted; decide +kernel⟩
    · cases h

end Scallop.Exec
