import Verif.Proof.Ram

/-!
# Optimization of RAM programs: C47
-/

namespace Scallop.Ram

variable {F S R : Type}

/-- **C47**: merging temporary relations with identical definitions succeeds, only removes temporary relations, and leaves the state of
every other relation after every number of rounds unchanged; for every meaning of the operators, every way of updating relations, and every
iteration order of hash sets. Temporaries are defined once and start out alike (empty), as the compiler creates them. -/
theorem c47 [DecidableEq F] (m : Sem F S R) (init : String → S) (hinit : ∀ a b, isTemp a = true → isTemp b = true → init a = init b)
    (order : List String → List String) (hord : ∀ l, (order l).Perm l) (s : Stratum F) (hs : SingleTemps s) (hT : Targets s) :
    ∃ s' b, dedup order s = some (s', b) ∧ (∀ r ∈ s.relations, r ∉ s'.relations → isTemp r = true) ∧
      (∀ r ∈ s'.relations, r ∈ s.relations ∧ ∀ n, m.run s'.updates init n r = m.run s.updates init n r) := by
  obtain ⟨q, h1, h2, _⟩ := equivalences_spec hs
  obtain ⟨⟨rem, g1, g2, g3, g4⟩, _⟩ := mergeSets_sim m init hinit order hord q.sets s h2.nodup h2.disjoint (uniform_of_inv h2) hT
  refine ⟨_, _, by unfold dedup; rw [h1]; rfl, ?_, ?_⟩
  · intro r hr hn
    rw [g1] at hn
    apply g2
    by_contra hc
    exact hn (List.mem_filter.mpr ⟨hr, by simpa using hc⟩)
  · intro r hr
    rw [g1] at hr
    obtain ⟨hr1, hr2⟩ := List.mem_filter.mp hr
    exact ⟨hr1, fun n => g3 n r (by simpa using hr2)⟩

/-- **C47**: the merged program stops in the same round: after every number of rounds some relation has a property (such as "has
changed") in the one program iff some relation has it in the other. -/
theorem c47_stop [DecidableEq F] (m : Sem F S R) (init : String → S) (hinit : ∀ a b, isTemp a = true → isTemp b = true → init a = init b)
    (order : List String → List String) (hord : ∀ l, (order l).Perm l) (s s' : Stratum F) (b : Bool) (hs : SingleTemps s) (hT : Targets s)
    (h : dedup order s = some (s', b)) (Q : S → Prop) (n : Nat) :
    (∃ r ∈ s'.relations, Q (m.run s'.updates init n r)) ↔ ∃ r ∈ s.relations, Q (m.run s.updates init n r) := by
  obtain ⟨q, h1, h2, _⟩ := equivalences_spec hs
  obtain ⟨⟨rem, g1, g2, g3, g4⟩, _⟩ := mergeSets_sim m init hinit order hord q.sets s h2.nodup h2.disjoint (uniform_of_inv h2) hT
  have hs' : s' = q.sets.foldl (fun s set => mergeSet s (order set)) s := by
    unfold dedup at h; rw [h1] at h; exact (congrArg Prod.fst (Option.some.inj h)).symm
  subst hs'
  have mem : ∀ r, r ∈ (q.sets.foldl (fun s set => mergeSet s (order set)) s).relations → r ∈ s.relations ∧ r ∉ rem := by
    intro r hr; rw [g1] at hr; obtain ⟨a, c⟩ := List.mem_filter.mp hr; exact ⟨a, by simpa using c⟩
  constructor
  · rintro ⟨r, hr, hq⟩
    obtain ⟨hr1, hr2⟩ := mem r hr
    exact ⟨r, hr1, by rw [← g3 n r hr2]; exact hq⟩
  · rintro ⟨r, hr, hq⟩
    by_cases hrem : r ∈ rem
    · obtain ⟨p, hp, hpn⟩ := g4 r hrem
      exact ⟨p, hp, by rw [g3 n p (mem p hp).2, ← hpn n]; exact hq⟩
    · exact ⟨r, by rw [g1]; exact List.mem_filter.mpr ⟨hr, by simpa using hrem⟩, by rw [g3 n r hrem]; exact hq⟩

/-- **C47**: the optimization loop (fusion of projections and merging of temporaries until nothing changes) ends for every program, and
unless it panics, in its result no projection is applied to a projection and no two temporaries of a stratum have the same definition. -/
theorem c47_terminates [DecidableEq F] (order : List String → List String) (hord : ∀ l, (order l).Perm l) (p : List (Stratum F))
    (hp : ∀ s ∈ p, SingleTemps s) : ∃ n, optimize order n p ≠ some none ∧
      ∀ p', optimize order n p = some (some p') → ∀ s ∈ p', (∀ u ∈ s.updates, nested u.flow = false) ∧
        ∀ u ∈ s.updates, ∀ v ∈ s.updates, isTemp u.target = true → isTemp v.target = true → u.flow = v.flow → u.target = v.target :=
  ⟨psize p + 1, optimize_terminates order hord _ p (Nat.lt_succ_self _) hp⟩

/-- Two chains of temporaries with the same definitions, used by one rule. -/
def twins : Stratum Empty :=
  ⟨["#temp#1", "#temp#2", "#temp#3", "#temp#4", "out"],
   [⟨"#temp#1", .un .sorted (.leaf (.rel "e"))⟩, ⟨"#temp#2", .un .sorted (.leaf (.rel "e"))⟩,
    ⟨"#temp#3", .bin .union (.leaf (.rel "#temp#1")) (.leaf (.reduce "count" "#temp#2" (.join "#temp#1")))⟩,
    ⟨"#temp#4", .bin .union (.leaf (.rel "#temp#1")) (.leaf (.reduce "count" "#temp#1" (.join "#temp#2")))⟩,
    ⟨"out", .bin .join (.leaf (.rel "#temp#3")) (.leaf (.rel "#temp#4"))⟩]⟩

example : SingleTemps twins := by
  intro r _
  simp only [twins, List.filter_cons, List.filter_nil]
  by_cases h1 : "#temp#1" = r
  · subst h1; decide
  · by_cases h2 : "#temp#2" = r
    · subst h2; decide
    · by_cases h3 : "#temp#3" = r
      · subst h3; decide
      · by_cases h4 : "#temp#4" = r
        · subst h4; decide
        · by_cases h5 : "out" = r <;> simp [h1, h2, h3, h4, h5]

example : Targets twins := by intro u hu; simp [twins] at hu; rcases hu with rfl | rfl | rfl | rfl | rfl <;> simp [twins]

/-- One call merges the first pair, with either pivot; the second pair becomes equal and is merged in the next turn of the loop. -/
example : (dedup id twins).map (fun r => (r.1.relations, r.2)) = some (["#temp#1", "#temp#3", "#temp#4", "out"], true) ∧
    (dedup List.reverse twins).map (fun r => (r.1.relations, r.2)) = some (["#temp#2", "#temp#3", "#temp#4", "out"], true) ∧
    ((optimize id 9 [twins]).bind id).map (fun p => p.map (·.relations)) = some [["#temp#1", "#temp#3", "out"]] := by
  refine ⟨by decide +kernel, by decide +kernel, by decide +kernel⟩

/-- Relations as lists of tuples; an update adds the outputs. -/
def listSem : Sem Empty (List Nat) (List Nat) where
  source := fun _ => []
  rel := id
  reduce := fun _ a _ _ => a
  project := fun _ a => a
  un := fun _ a => a
  joinVec := fun _ a => a
  bin := fun _ a b => a ++ b
  update := fun s l => s ++ l.flatten

/-- **C47 needs singly defined temporaries**: if a temporary has a second definition, merging it into one that shares the first
definition loses facts. -/
theorem c47_second_definition_lost : ∃ (s s' : Stratum Empty) (init : String → List Nat), dedup List.reverse s = some (s', true) ∧
    "out" ∈ s'.relations ∧ 2 ∈ listSem.run s.updates init 2 "out" ∧ ∀ n, 2 ∉ listSem.run s'.updates init n "out" := by
  let s : Stratum Empty := ⟨["#temp#1", "#temp#2", "out"],
    [⟨"#temp#1", .leaf (.rel "e")⟩, ⟨"#temp#2", .leaf (.rel "e")⟩, ⟨"#temp#1", .leaf (.rel "f")⟩, ⟨"out", .leaf (.rel "#temp#1")⟩]⟩
  let s' : Stratum Empty := ⟨["#temp#2", "out"], [⟨"#temp#2", .leaf (.rel "e")⟩, ⟨"out", .leaf (.rel "#temp#2")⟩]⟩
  let init : String → List Nat := fun r => if r = "e" then [1] else if r = "f" then [2] else []
  refine ⟨s, s', init, by decide +kernel, by decide, by decide +kernel, fun n => ?_⟩
  have key : ∀ n, 2 ∉ listSem.run s'.updates init n "out" ∧ 2 ∉ listSem.run s'.updates init n "#temp#2" ∧
      2 ∉ listSem.run s'.updates init n "e" := by
    intro n
    induction n with
    | zero => decide
    | succ n ih =>
      obtain ⟨h1, h2, h3⟩ := ih
      simp only [Sem.run, Sem.round]
      refine ⟨?_, ?_, ?_⟩
      · simpa [s', listSem, Sem.out, Sem.leaf] using ⟨h1, h2⟩
      · simpa [s', listSem, Sem.out, Sem.leaf] using ⟨h2, h3⟩
      · simpa [s', listSem, Sem.out, Sem.leaf] using h3
  exact (key n).1

end Scallop.Ram
