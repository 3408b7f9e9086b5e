import Verif.Proof.DumpProofs

/-!
# C120: proofs that are dumped can be read
-/

namespace Scallop.Dump

variable {P : Type}

/-- **C120**: after facts are tagged and relations are read, the file of a relation that was read, has facts and has no given facts with probabilities, has each of its facts with its
probability and all its proofs, in order. *Partial*: the relation has no such given facts, or is the one that was read last (`c120_proofs_false`). -/
theorem c120_proofs_partial (loads : List (Load P)) (reads : List (Reading P)) (fs : Files P) :
    ∃ fs', session true loads reads fs = some fs' ∧ ∀ r, readFacts reads r ≠ [] → (givenFacts loads r = [] ∨ (reads.getLast?.map Reading.relation) = some r) →
      HasProofs (fs' r) (readFacts reads r) := by
  obtain ⟨fs', h1, h2⟩ := session_eq loads reads fs
  refine ⟨fs', h1, ?_⟩
  intro r hr hg
  refine ⟨(readFacts reads r).map derivedOf, ?_, forall₂_derivedOf _⟩
  rw [h2]
  unfold finalFile
  rcases hg with hg | hg
  · simp [hg, hr]
  · simp [hg, hr]

/-- **C120**: the file of a relation has its given facts that have probabilities, with the variables that stand for them in proofs, if it is not read, or has no facts when it is read. -/
theorem c120_given_partial (loads : List (Load P)) (reads : List (Reading P)) (fs : Files P) (hn : reads ≠ []) :
    ∃ fs', session true loads reads fs = some fs' ∧ ∀ r, givenFacts loads r ≠ [] → readFacts reads r = [] → HasGiven (fs' r) (givenFacts loads r) := by
  obtain ⟨fs', h1, h2⟩ := session_eq loads reads fs
  refine ⟨fs', h1, ?_⟩
  intro r hg hr
  rw [HasGiven, h2]
  simp [finalFile, hg, hr, hn]

/-- **C120**: a relation with given facts that have probabilities, which was read and has facts, has one file for both, *so that* one is lost: its proofs are, unless it is the last that was read,
and then its given facts are. -/
theorem c120_proofs_false (loads : List (Load P)) (reads : List (Reading P)) (fs : Files P) :
    ∃ fs', session true loads reads fs = some fs' ∧ ∀ r, givenFacts loads r ≠ [] → readFacts reads r ≠ [] →
      ((reads.getLast?.map Reading.relation) ≠ some r → HasGiven (fs' r) (givenFacts loads r) ∧ ¬ ∃ l, fs' r = some (.derived l)) ∧
      ((reads.getLast?.map Reading.relation) = some r → HasProofs (fs' r) (readFacts reads r) ∧ ¬ ∃ l, fs' r = some (.given l)) := by
  obtain ⟨fs', h1, h2⟩ := session_eq loads reads fs
  refine ⟨fs', h1, ?_⟩
  intro r hg hr
  have hn : reads ≠ [] := by
    rintro rfl
    exact hr rfl
  refine ⟨?_, ?_⟩
  · intro hl
    have : fs' r = some (.given (givenFacts loads r)) := by rw [h2]; simp [finalFile, hl, hg, hn]
    exact ⟨this, by rw [this]; simp⟩
  · intro hl
    have : fs' r = some (.derived ((readFacts reads r).map derivedOf)) := by rw [h2]; simp [finalFile, hl, hr]
    exact ⟨⟨_, this, forall₂_derivedOf _⟩, by rw [this]; simp⟩

/-- **C120**: if the only relation with given facts is the last that is read, no file says which facts the variables of the proofs stand for. -/
theorem c120_variables_false (loads : List (Load P)) (reads : List (Reading P)) (r : String) (hl : ∀ l ∈ loads, l.relation = r)
    (hr : (reads.getLast?.map Reading.relation) = some r) (hf : readFacts reads r ≠ []) :
    ∃ fs', session true loads reads (fun _ => none) = some fs' ∧ ∀ q l, fs' q ≠ some (.given l) := by
  obtain ⟨fs', h1, h2⟩ := session_eq loads reads (fun _ => none)
  refine ⟨fs', h1, ?_⟩
  intro q l
  rw [h2]
  by_cases hq : q = r
  · subst hq
    simp [finalFile, hr, hf]
  · have : givenFacts loads q = [] := by
      unfold givenFacts
      rw [List.filter_eq_nil_iff.mpr (fun l h => by simp [hl l h, Ne.symm hq])]
      rfl
    unfold finalFile
    simp only [this, ne_eq, not_true_eq_false, false_and, if_false]
    split
    · simp
    · split <;> simp

/-- **C120**: the file of a relation that is empty when it is read, and has no given facts with probabilities, is that of an earlier run, if there was one. -/
theorem c120_stale_false (loads : List (Load P)) (reads : List (Reading P)) (fs : Files P) :
    ∃ fs', session true loads reads fs = some fs' ∧ ∀ r, givenFacts loads r = [] → readFacts reads r = [] → fs' r = fs r := by
  obtain ⟨fs', h1, h2⟩ := session_eq loads reads fs
  refine ⟨fs', h1, ?_⟩
  intro r hg hr
  rw [h2]
  simp [finalFile, hg, hr]

/-- **C120**: without the directory, reading a relation is a panic, if a fact of any relation was given with a probability, or if the relation has facts. -/
theorem c120_directory_false (loads : List (Load P)) (reads : List (Reading P)) (fs : Files P) (l : Reading P) (hl : reads.head? = some l)
    (h : (∃ r, givenFacts loads r ≠ []) ∨ l.facts ≠ []) : session false loads reads fs = none := by
  obtain ⟨s, h1, h2, h3⟩ := run_loads false loads State.new fs
  obtain ⟨rest, rfl⟩ : ∃ rest, reads = l :: rest := by
    cases reads with
    | nil => cases hl
    | cons a rest => exact ⟨rest, by simp at hl; rw [hl]⟩
  rw [session, run_append, h1, Option.bind_some, List.flatMap_cons, run_append, run_reading]
  have hne : (!s.tagged.isEmpty || !(entries (s.recovered ++ (l.facts.map derivedOf).map (fun g => (l.relation, g))) l.relation).isEmpty) = true := by
    rcases h with ⟨r, hr⟩ | h
    · have : s.tagged ≠ [] := by
        intro h0
        have he := entries_loads loads r
        rw [h3] at h0
        rw [State.new] at h0
        simp only [List.nil_append] at h0
        rw [h0] at he
        exact hr he.symm
      simp [this]
    · rw [h2, entries_append, entries_same]
      simp [State.new, h]
  simp only [State.dump, Bool.not_false, Bool.true_and, hne, if_true, Option.map_none, Option.bind_none]

/-! ## Examples -/

/-- Two edges with probabilities, and the paths. -/
private def edges : List (Load Nat) := [⟨"edge", [("(0, 1)", some 5, [[.pos 0]]), ("(1, 2)", some 7, [[.pos 1]])]⟩]
private def readEdge : Reading Nat := ⟨"edge", [("(0, 1)", [[.pos 0]], 5), ("(1, 2)", [[.pos 1]], 7)]⟩
private def readPath : Reading Nat := ⟨"path", [("(0, 2)", [[.pos 0, .pos 1], [.neg 0]], 3)]⟩

/-- The hypotheses of the theorems are met: the paths have a file with proofs; the edges have one with the given facts if they are read first, and one with the proofs if they are read last. -/
example : givenFacts edges "edge" = [⟨0, some 5, "(0, 1)"⟩, ⟨1, some 7, "(1, 2)"⟩] ∧ givenFacts edges "path" = [] ∧
    (session true edges [readEdge, readPath] (fun _ => none)).map (fun fs => (fs "edge", fs "path")) =
      some (some (.given [⟨0, some 5, "(0, 1)"⟩, ⟨1, some 7, "(1, 2)"⟩]), some (.derived [⟨"(0, 2)", 3, [[(true, 0), (true, 1)], [(false, 0)]]⟩])) ∧
    (session true edges [readPath, readEdge] (fun _ => none)).map (fun fs => (fs "edge", fs "path")) =
      some (some (.derived [⟨"(0, 1)", 5, [[(true, 0)]]⟩, ⟨"(1, 2)", 7, [[(true, 1)]]⟩]), some (.derived [⟨"(0, 2)", 3, [[(true, 0), (true, 1)], [(false, 0)]]⟩])) ∧
    (session false edges [readPath] (fun _ => none)).isNone = true := by decide +kernel

end Scallop.Dump
