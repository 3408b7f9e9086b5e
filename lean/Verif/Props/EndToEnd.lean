import Verif.Proof.EndToEnd
import Verif.Props.Exec

/-!
# From rules to results: the properties

C80: a program that is compiled and executed holds what its rules define.
-/

namespace Scallop.Exec

open Scallop.Ram Scallop.Plan

variable {F T W : Type} [LinearOrder (Val F)] [LinearOrder W]

/-- **C80 (partial).** A stratified program of rules is compiled, and what it is compiled to is executed, with or without incremental maintenance. If the
execution ends, then every predicate that is not hidden holds exactly the tuples that the rules define over the facts of the extensional database: in
every stratum the least sets closed under the rules, given the strata before. These are determined by the rules and the facts; plans, orders of
evaluation, temporary relations and tags do not matter. -/
theorem c80_program_partial (c : Prov T W) (R : Runtime F T) (hm : c.Uniform) (hX : R.X.ExactFloats) (E : Plan.Env F) (hO : E.Orders) (S : Search)
    (hS : S.Lawful) (arity : String → Nat) (rules : List (SRule F)) (strata : List (List String)) (decl : String → Decl) (edb : Db F T)
    (ok : ProgramOk (R.setting c) E arity rules strata (edbFacts edb)) (run : Runnable c R E rules strata decl) (ram : List (Ram.Stratum F))
    (hc : compileStrata E S rules strata = some ram) (full : R.Full c ⟨ram, decl⟩) (hedb : ∀ r a, edb r = some a → ∃ l, a = .sorted l ∧ Sorted l)
    (incremental : Bool) (fuel : Nat) (idb : Db F T) (h : executeFrom c R ⟨ram, decl⟩ incremental fuel edb (fun _ => none) = .done idb) :
    ∃ J, StratModel (edbFacts edb) (strata.map (srcLayer (R.setting c) E rules)) J ∧
      (∀ J', StratModel (edbFacts edb) (strata.map (srcLayer (R.setting c) E rules)) J' → ∀ p ∈ strata.flatten, ∀ t, J' p t ↔ J p t) ∧
      ∀ p ∈ strata.flatten, (decl p).hidden = false → ∃ l, idb p = some (.sorted l) ∧ Contents l (J p) := by
  obtain ⟨hok, hdis⟩ := compiled_ok hO hS ok run hc
  obtain ⟨J, hJ, _, hl⟩ := c76_execution c R ⟨ram, decl⟩ hm hdis hok full incremental fuel edb (fun _ => none) idb hedb (fun _ _ _ _ h => by cases h) h
  have hG := setting_local c R
  refine ⟨J, (c75_partial _ hG hX E hO S hS arity rules strata _ ok ram hc).2 J hJ, ?_, ?_⟩
  · intro J' hJ' p hp t
    exact (c75_unique_partial _ hG hX E hO S hS arity rules strata _ ok ram hc J J' hJ hJ' p hp t).symm
  · intro p hp hv
    refine hl p ?_ hv
    obtain ⟨ss, sN, k⟩ := ok.comp hS hc
    obtain ⟨j, D, hD, hq⟩ := mem_flatten_get.mp hp
    have hj : j < ram.length := by rw [k.len]; exact (List.getElem?_eq_some_iff.mp hD).1
    exact List.mem_flatMap.mpr ⟨ram[j], List.getElem_mem hj, (k.rel j _ (List.getElem?_eq_getElem hj) p).mpr (Or.inl (k.user_at hD hq))⟩

/-! ## An example -/

attribute [local instance] Val.order

private abbrev i (n : Int) : Val Empty := .int .i32 n
private abbrev row (ns : List Int) : Tup (Val Empty) := flat (ns.map i)

/-- The declarations of the program of `Props/Strata.lean`: facts are immutable, relations made up by the compiler are hidden. -/
def pathDecl (r : String) : Decl := ⟨'#' ∈ r.toList, r = "edge" || r = "node", false, none, false⟩

/-- The facts of the program of `Props/Strata.lean`. -/
def pathEdb : Db Empty Unit := fun r =>
  if r = "edge" then some (.sorted ([[1, 2], [2, 3]].map (fun l => ⟨row l, ()⟩)))
  else if r = "node" then some (.sorted ([[1], [2], [3]].map (fun l => ⟨row l, ()⟩)))
  else none

private theorem pathEdb_facts (p : String) (t : Tup (Val Empty)) (h : edbFacts pathEdb p t) : pathFacts p t := by
  obtain ⟨a, ha, ht⟩ := h
  unfold pathEdb at ha
  split at ha
  · rename_i e
    cases ha
    subst e
    simp [Coll.elems, tuples] at ht
    rcases ht with rfl | rfl <;> simp [pathFacts, row, flat]
  · split at ha
    · rename_i e
      cases ha
      subst e
      simp [Coll.elems, tuples] at ht
      rcases ht with rfl | rfl | rfl <;> simp [pathFacts, row, flat]
    · cases ha

theorem pathRules_runnable : Runnable unitProv (plainRuntime Unit ()) testEnv pathRules pathStrata pathDecl where
  plain := fun _ => ⟨rfl, rfl⟩
  writable := by
    intro r hr
    simp only [pathDecl, Bool.or_eq_true, decide_eq_true_eq] at hr
    rcases hr with rfl | rfl <;> exact ⟨by decide, by decide⟩
  temps := by decide
  vars := by decide +kernel
  aggs := by
    intro q hq r hr
    exfalso
    revert q
    simp [pathRules, reducesOf]
  neg := fun _ _ _ _ _ => rfl

/-- The hypotheses of `c80_program_partial` are met, and the execution ends. -/
example : ∃ ram, compileStrata testEnv testSearch pathRules pathStrata = some ram ∧ (plainRuntime Unit ()).Full unitProv ⟨ram, pathDecl⟩ ∧
    unitProv.Uniform ∧ ProgramOk ((plainRuntime Unit ()).setting unitProv) testEnv pathArity pathRules pathStrata (edbFacts pathEdb) ∧
    (∀ r a, pathEdb r = some a → ∃ l, a = .sorted l ∧ Sorted l) ∧
    ∀ b, ∃ idb, executeFrom unitProv (plainRuntime Unit ()) ⟨ram, pathDecl⟩ b 20 pathEdb (fun _ => none) = .done idb ∧
      (["edge", "node", "path", "far"].map (fun r => (idb r).map (fun a => a.elems.map Elem.tuple))) =
        [some ([[1, 2], [2, 3]].map row), some ([[1], [2], [3]].map row), some ([[1, 2], [1, 3], [2, 3]].map row),
          some ([[1, 1], [1, 2], [1, 3], [2, 2], [2, 3], [3, 3]].map row)] := by
  have h : ∀ b, ((compileStrata testEnv testSearch pathRules pathStrata).bind (fun ram =>
      match executeFrom unitProv (plainRuntime Unit ()) ⟨ram, pathDecl⟩ b 20 pathEdb (fun _ => none) with
      | .done idb => some (["edge", "node", "path", "far"].map (fun r => (idb r).map (fun a => a.elems.map Elem.tuple)))
      | _ => none)) =
        some [some ([[1, 2], [2, 3]].map row), some ([[1], [2], [3]].map row), some ([[1, 2], [1, 3], [2, 3]].map row),
          some ([[1, 1], [1, 2], [1, 3], [2, 2], [2, 3], [3, 3]].map row)] := by decide +kernel
  cases hc : compileStrata testEnv testSearch pathRules pathStrata with
  | none => simp [hc] at h
  | some ram =>
    refine ⟨ram, rfl, plainRuntime_full _ _ _ (fun _ => rfl), fun _ _ _ => rfl, pathProgram_good pathEdb_facts, ?_, ?_⟩
    · intro r a h
      unfold pathEdb at h
      split at h
      · cases h
        exact ⟨_, rfl, by unfold Sorted; decide +kernel⟩
      · split at h
        · cases h
          exact ⟨_, rfl, by unfold Sorted; decide +kernel⟩
        · cases h
    · intro b
      have hb := h b
      rw [hc, Option.bind_some] at hb
      split at hb
      · rename_i idb hi
        exact ⟨idb, hi, by simpa using hb⟩
      · cases hb

end Scallop.Exec
