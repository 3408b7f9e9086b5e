import Verif.Spec.DumpProofs
import Mathlib.Data.List.Induction

namespace Scallop.Dump

variable {P : Type}

theorem entries_append {α : Type} (a b : List (String × α)) (r : String) : entries (a ++ b) r = entries a r ++ entries b r := List.filterMap_append

theorem entries_same {α : Type} (l : List α) (r q : String) : entries (l.map (fun x => (r, x))) q = if r = q then l else [] := by
  unfold entries
  rw [List.filterMap_map]
  split
  · rename_i h
    induction l with
    | nil => rfl
    | cons x l ih => simp [h, ih]
  · rename_i h
    induction l with
    | nil => rfl
    | cons x l ih => simp [h]

/-- The entry of a given fact. -/
def givenOf (f : String × Option P × List Clause) : Option (Given P) := (singletonId f.2.2).map (fun i => ⟨i, f.2.1, f.1⟩)

/-- The entry of a fact that is read. -/
def derivedOf (f : String × List Clause × P) : Derived P := ⟨f.1, f.2.2, proofsOf f.2.1⟩

theorem shows_derivedOf (f : String × List Clause × P) : Shows f (derivedOf f) := by
  refine ⟨rfl, rfl, ?_⟩
  simp only [derivedOf, proofsOf, List.map_map]
  have h1 : (literal ∘ code) = id := by
    funext l
    cases l <;> rfl
  have h2 : (List.map literal ∘ List.map code) = id := by
    funext c
    simp only [Function.comp, List.map_map, id]
    exact (congrArg (fun f => List.map f c) h1).trans (List.map_id c)
  exact (congrArg (fun g => List.map g f.2.1) h2).trans (List.map_id _)

theorem forall₂_derivedOf (l : List (String × List Clause × P)) : List.Forall₂ Shows l (l.map derivedOf) := by
  induction l with
  | nil => exact .nil
  | cons f l ih => exact .cons (shows_derivedOf f) ih

theorem givenFacts_eq (loads : List (Load P)) (r : String) :
    givenFacts loads r = ((loads.filter (fun l => l.relation = r)).flatMap Load.facts).filterMap givenOf := by
  unfold givenFacts
  congr 1
  funext f
  obtain ⟨t, p, tag⟩ := f
  unfold givenOf singletonId
  simp only
  split <;> simp_all

theorem recordTag_eq {s : State P} {r : String} (h : s.tagging = some r) (f : String × Option P × List Clause) :
    s.recordTag f.1 f.2.1 f.2.2 = { s with tagged := s.tagged ++ (givenOf f).toList.map (fun g => (r, g)) } := by
  unfold State.recordTag givenOf
  rw [h]
  cases singletonId f.2.2 with
  | none => simp [← h]
  | some i => simp [h]

theorem run_tagging (dir : Bool) (r : String) : ∀ (l : List (String × Option P × List Clause)) (s : State P) (fs : Files P), s.tagging = some r →
    run dir (l.map (fun f => .tagging f.1 f.2.1 f.2.2)) (s, fs) = some ({ s with tagged := s.tagged ++ (l.filterMap givenOf).map (fun g => (r, g)) }, fs)
  | [], s, fs, _ => by simp [run]
  | f :: l, s, fs, h => by
    have ih := run_tagging dir r l { s with tagged := s.tagged ++ (givenOf f).toList.map (fun g => (r, g)) } fs h
    simp only [run] at ih
    simp only [run, List.map_cons, List.foldlM_cons, step, Option.bind_eq_bind, Option.bind_some, recordTag_eq h]
    rw [ih]
    cases hg : givenOf f with
    | none => simp [hg]
    | some g => simp [hg]

theorem run_append (dir : Bool) (a b : List (Event P)) (q : State P × Files P) : run dir (a ++ b) q = (run dir a q).bind (run dir b) := by
  simp only [run, List.foldlM_append]
  rfl

theorem run_load (dir : Bool) (l : Load P) (s : State P) (fs : Files P) :
    run dir l.events (s, fs) = some ({ s with tagging := some l.relation, tagged := s.tagged ++ (l.facts.filterMap givenOf).map (fun g => (l.relation, g)) }, fs) := by
  have := run_tagging dir l.relation l.facts { s with tagging := some l.relation } fs rfl
  simp only [run] at this
  simp only [run, Load.events, List.foldlM_cons, step, Option.bind_eq_bind, Option.bind_some]
  rw [this]

theorem run_loads (dir : Bool) : ∀ (loads : List (Load P)) (s : State P) (fs : Files P), ∃ s', run dir (loads.flatMap Load.events) (s, fs) = some (s', fs) ∧
    s'.recovered = s.recovered ∧ s'.tagged = s.tagged ++ loads.flatMap (fun l => (l.facts.filterMap givenOf).map (fun g => (l.relation, g)))
  | [], s, fs => ⟨s, by simp [run], rfl, by simp⟩
  | l :: loads, s, fs => by
    rw [List.flatMap_cons, run_append, run_load]
    obtain ⟨s', h1, h2, h3⟩ := run_loads dir loads { s with tagging := some l.relation, tagged := s.tagged ++ (l.facts.filterMap givenOf).map (fun g => (l.relation, g)) } fs
    exact ⟨s', h1, h2, by rw [h3]; simp⟩

theorem entries_loads (loads : List (Load P)) (r : String) :
    entries (loads.flatMap (fun l => (l.facts.filterMap givenOf).map (fun g => (l.relation, g)))) r = givenFacts loads r := by
  rw [givenFacts_eq]
  induction loads with
  | nil => rfl
  | cons l loads ih =>
    rw [List.flatMap_cons, entries_append, entries_same, ih, List.filter_cons]
    by_cases h : l.relation = r
    · simp [h, List.filterMap_append]
    · simp [h]

theorem run_recover (dir : Bool) (r : String) : ∀ (l : List (String × List Clause × P)) (s : State P) (fs : Files P), s.recovering = some r →
    run dir (l.map (fun f => .recover f.1 f.2.1 f.2.2)) (s, fs) = some ({ s with recovered := s.recovered ++ (l.map derivedOf).map (fun g => (r, g)) }, fs)
  | [], s, fs, _ => by simp [run]
  | f :: l, s, fs, h => by
    have ih := run_recover dir r l { s with recovered := s.recovered ++ [(r, derivedOf f)] } fs h
    simp only [run] at ih
    have hr : s.recordRecover f.1 f.2.2 f.2.1 = { s with recovered := s.recovered ++ [(r, derivedOf f)] } := by
      unfold State.recordRecover
      rw [h]
      simp [derivedOf, h]
    simp only [run, List.map_cons, List.foldlM_cons, step, Option.bind_eq_bind, Option.bind_some, hr]
    rw [ih]
    simp

theorem run_reading (dir : Bool) (l : Reading P) (s : State P) (fs : Files P) :
    run dir l.events (s, fs) =
      (State.dump dir { s with recovering := some l.relation, recovered := s.recovered ++ (l.facts.map derivedOf).map (fun g => (l.relation, g)) } l.relation fs).map
        (fun fs' => ({ s with recovering := some l.relation, recovered := s.recovered ++ (l.facts.map derivedOf).map (fun g => (l.relation, g)) }, fs')) := by
  have := run_recover dir l.relation l.facts { s with recovering := some l.relation } fs rfl
  unfold Reading.events
  rw [run_append, run_append]
  have h1 : run dir [Event.recovering l.relation] (s, fs) = some ({ s with recovering := some l.relation }, fs) := rfl
  rw [h1, Option.bind_some, this, Option.bind_some]
  simp only [run, List.foldlM_cons, List.foldlM_nil, step, Option.bind_eq_bind]
  cases State.dump dir { s with recovering := some l.relation, recovered := s.recovered ++ (l.facts.map derivedOf).map (fun g => (l.relation, g)) } l.relation fs <;> rfl

/-- The entries of all relations that are read. -/
def allRead (reads : List (Reading P)) : List (String × Derived P) := reads.flatMap (fun l => (l.facts.map derivedOf).map (fun g => (l.relation, g)))

theorem entries_allRead (reads : List (Reading P)) (r : String) : entries (allRead reads) r = (readFacts reads r).map derivedOf := by
  unfold allRead readFacts
  induction reads with
  | nil => rfl
  | cons l reads ih =>
    rw [List.flatMap_cons, entries_append, entries_same, ih, List.filter_cons]
    by_cases h : l.relation = r
    · simp [h]
    · simp [h]

/-- The file of a relation in the end. -/
def finalFile (g : List (Given P)) (reads : List (Reading P)) (r : String) (old : Option (Content P)) : Option (Content P) :=
  if (reads.getLast?.map Reading.relation) = some r ∧ readFacts reads r ≠ [] then some (.derived ((readFacts reads r).map derivedOf))
  else if g ≠ [] ∧ reads ≠ [] then some (.given g)
  else if readFacts reads r ≠ [] then some (.derived ((readFacts reads r).map derivedOf))
  else old

theorem readFacts_snoc (reads : List (Reading P)) (l : Reading P) (r : String) :
    readFacts (reads ++ [l]) r = readFacts reads r ++ if l.relation = r then l.facts else [] := by
  unfold readFacts
  rw [List.filter_append, List.flatMap_append]
  congr 1
  by_cases h : l.relation = r <;> simp [h]

theorem run_reads (s : State P) (hs : s.recovered = []) (fs : Files P) (reads : List (Reading P)) : ∃ s' fs', run true (reads.flatMap Reading.events) (s, fs) = some (s', fs') ∧
    s'.tagged = s.tagged ∧ s'.recovered = allRead reads ∧ ∀ r, fs' r = finalFile (entries s.tagged r) reads r (fs r) := by
  induction reads using List.reverseRecOn with
  | nil => exact ⟨s, fs, by simp [run], rfl, by simp [allRead, hs], fun r => by simp [finalFile, readFacts]⟩
  | append_singleton reads l ih =>
    obtain ⟨s', fs', h1, h2, h3, h4⟩ := ih
    rw [List.flatMap_append, run_append, h1, Option.bind_some, List.flatMap_singleton, run_reading]
    simp only [State.dump, Bool.not_true, Bool.false_and, Bool.false_eq_true, if_false, Option.map_some]
    have hr : s'.recovered ++ (l.facts.map derivedOf).map (fun g => (l.relation, g)) = allRead (reads ++ [l]) := by
      rw [h3]
      simp [allRead]
    refine ⟨_, _, rfl, h2, hr, ?_⟩
    intro r
    simp only [hr, entries_allRead, h2, h4]
    unfold finalFile
    simp only [List.getLast?_append, List.getLast?_singleton, Option.map_some, readFacts_snoc]
    by_cases hlr : l.relation = r
    · subst hlr
      by_cases hd : readFacts reads l.relation ++ l.facts = []
      · have hd' := List.append_eq_nil_iff.mp hd
        by_cases hg : entries s.tagged l.relation = [] <;> simp [hd'.1, hd'.2, hg]
      · have hd' : ¬ (readFacts reads l.relation = [] ∧ l.facts = []) := fun h => hd (List.append_eq_nil_iff.mpr h)
        simp only [if_true, ne_eq, List.append_eq_nil_iff, hd', not_false_eq_true, and_self, decide_true, Bool.true_and]
        rw [if_pos]
        · simp
        · rw [Bool.not_eq_true', List.isEmpty_eq_false_iff]
          simpa using hd'
    · have hlr' : r ≠ l.relation := fun h => hlr h.symm
      simp only [hlr, hlr', if_false, List.append_nil, decide_false, Bool.false_and, Bool.false_eq_true, Option.some.injEq, false_and]
      by_cases hg : entries s.tagged r = []
      · by_cases hd : readFacts reads r = []
        · simp [hg, hd]
        · simp [hg, hd]
      · simp [hg, hlr]

theorem session_eq (loads : List (Load P)) (reads : List (Reading P)) (fs : Files P) :
    ∃ fs', session true loads reads fs = some fs' ∧ ∀ r, fs' r = finalFile (givenFacts loads r) reads r (fs r) := by
  obtain ⟨s, h1, h2, h3⟩ := run_loads true loads State.new fs
  obtain ⟨s', fs', h4, _, _, h5⟩ := run_reads s h2 fs reads
  refine ⟨fs', ?_, ?_⟩
  · rw [session, run_append, h1, Option.bind_some, h4]
    rfl
  · intro r
    rw [h5, h3]
    simp only [State.new, List.nil_append, entries_loads]

end Scallop.Dump
