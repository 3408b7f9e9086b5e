import Verif.Proof.Import

/-!
# C107: imports
-/

namespace Scallop.Import

variable {Path Item : Type} [DecidableEq Path] {fs : Files Path Item} {accept : List Item → List Item → Bool}

/-- **C107 (end).** With finitely many files, compiling a source and everything it imports ends whatever the imports are, cycles included, and has one result. -/
theorem c107_terminates (files : List Path) (hfiles : ∀ p, fs p ≠ none → p ∈ files) (c : Ctx Path Item) (s : Source Path Item) :
    ∃ r, Ends fs accept c s r ∧ r ≠ .error .outOfFuel ∧ ∀ r', Ends fs accept c s r' → r' = r := by
  have h := compile_enough (accept := accept) files hfiles _ c s (Nat.lt_succ_self _)
  refine ⟨_, ⟨_, fun n hn => (h n hn).1⟩, (h _ (Nat.le_refl _)).2, ?_⟩
  rintro r' ⟨N, hN⟩
  rw [← hN (max N _) (Nat.le_max_left _ _)]
  exact (h _ (Nat.le_max_right _ _)).1

/-- **C107 (exact).** A source compiles exactly if it and all the files it imports, directly or not, can be read, each of these is reached in one way only and is neither the source itself nor
imported before, and the analyses accept the items of each file after those of the files before it. -/
theorem c107_exact (c : Ctx Path Item) (s : Source Path Item) :
    (∃ c', Ends fs accept c s (.ok c')) ↔
      ∃ imports items order, s.content = some (imports, items) ∧ Unfold fs imports order ∧ order.Nodup ∧ (∀ p ∈ order, p ∉ c.imported ∧ s.path ≠ some p) ∧
        AllAccepted fs accept c.items order ∧ accept (c.items ++ itemsOf fs order) items = true := by
  constructor
  · rintro ⟨c', N, hN⟩
    obtain ⟨imports, items, order, h1, h2, h3, h4, h5, h6, -⟩ := compile_ok (hN N (Nat.le_refl _))
    exact ⟨imports, items, order, h1, h2, h3, h4, h5, h6⟩
  · rintro ⟨imports, items, order, h1, h2, h3, h4, h5, h6⟩
    obtain ⟨N, hN⟩ := importAll_complete (accept := accept) h2
    have ok : ∀ n ≥ N + 1, ∃ c', compile fs accept n c s = .ok c' := by
      intro n hn
      obtain ⟨n, rfl⟩ : ∃ m, n = m + 1 := ⟨n - 1, by omega⟩
      obtain ⟨c2, hc2⟩ := hN n (by omega) (c.addImport s.path) h3 (by
        intro p hp hm
        rcases (mem_addImport _ _ _).1 hm with hm | hm
        · exact (h4 p hp).2 hm
        · exact (h4 p hp).1 hm) (by simpa only [addImport_items] using h5)
      obtain ⟨o, hu, ha⟩ := importAll_ok n _ _ _ hc2
      obtain rfl := unfold_unique h2 hu
      refine ⟨{ c2 with items := c2.items ++ items }, ?_⟩
      simp only [compile, h1, hc2, Except.bind]
      rw [if_pos (by rw [ha.items, addImport_items]; exact h6)]
    obtain ⟨c', hc'⟩ := ok (N + 1) (Nat.le_refl _)
    refine ⟨c', N + 1, fun n hn => ?_⟩
    exact compile_mono_ok hc' n hn

/-- **C107 (items).** The program after a compilation that succeeds is the program before, then the items of the imported files, each file once and after the files it imports, then the items of the
source. -/
theorem c107_items (c c' : Ctx Path Item) (s : Source Path Item) (h : Ends fs accept c s (.ok c')) :
    ∃ imports items order, s.content = some (imports, items) ∧ c'.items = c.items ++ itemsOf fs order ++ items ∧ order.Nodup ∧
      (∀ q, q ∈ order ↔ ∃ p ∈ imports, Relation.ReflTransGen (Imports fs) p q) ∧
      (∀ a p b q, order = a ++ p :: b → Imports fs p q → q ∈ a) ∧
      ∀ p, p ∈ c'.imported ↔ p ∈ c.imported ∨ s.path = some p ∨ p ∈ order := by
  obtain ⟨N, hN⟩ := h
  obtain ⟨imports, items, order, h1, h2, h3, h4, h5, h6, h7, h8⟩ := compile_ok (hN N (Nat.le_refl _))
  exact ⟨imports, items, order, h1, h7, h3, unfold_reach h2, (unfold_order h2).2, h8⟩

/-- **C107 (cycles).** A program whose imports contain a cycle does not compile. -/
theorem c107_cycle (c : Ctx Path Item) (s : Source Path Item) (imports : List Path) (items : List Item) (hs : s.content = some (imports, items))
    (p q : Path) (hp : p ∈ imports) (hq : Relation.ReflTransGen (Imports fs) p q) (hc : Relation.TransGen (Imports fs) q q ∨ s.path = some q) :
    ¬ ∃ c', Ends fs accept c s (.ok c') := by
  rintro h
  obtain ⟨imports', items', order, h1, h2, h3, h4, h5, h6⟩ := (c107_exact c s).1 h
  rw [hs] at h1
  cases h1
  have hm : q ∈ order := (unfold_reach h2 q).2 ⟨p, hp, hq⟩
  rcases hc with hc | hc
  · exact acc_no_cycle (unfold_acc h2 q hm) hc
  · exact (h4 q hm).2 hc

/-- **C107 (histories).** Over any number of compilations on one context, those that fail leave no trace, and no file is imported twice. -/
theorem c107_history (n : Nat) (c : Ctx Path Item) (ss : List (Source Path Item)) :
    ∃ blocks : List (Source Path Item × List Path × List Item × List Path), (blocks.map (·.1)).Sublist ss ∧
      (∀ s imports items order, (s, imports, items, order) ∈ blocks → s.content = some (imports, items) ∧ Unfold fs imports order ∧ order.Nodup ∧ ∀ p ∈ order, p ∉ c.imported) ∧
      (compileMany (compile fs accept n) c ss).items = c.items ++ blocks.flatMap (fun b => itemsOf fs b.2.2.2 ++ b.2.2.1) ∧
      (∀ p, p ∈ (compileMany (compile fs accept n) c ss).imported ↔ p ∈ c.imported ∨ ∃ b ∈ blocks, b.1.path = some p ∨ p ∈ b.2.2.2) ∧
      blocks.Pairwise (fun b b' => ∀ p ∈ b'.2.2.2, p ∉ b.2.2.2 ∧ b.1.path ≠ some p) := by
  induction ss generalizing c with
  | nil => exact ⟨[], by simp, by simp, by simp [compileMany], by simp [compileMany], .nil⟩
  | cons s ss ih =>
    simp only [compileMany]
    cases hc : compile fs accept n c s with
    | error e =>
      obtain ⟨blocks, h1, h2, h3, h4, h5⟩ := ih c
      exact ⟨blocks, h1.cons _, h2, h3, h4, h5⟩
    | ok c1 =>
      obtain ⟨imports, items, order, g1, g2, g3, g4, g5, g6, g7, g8⟩ := compile_ok hc
      obtain ⟨blocks, h1, h2, h3, h4, h5⟩ := ih c1
      refine ⟨(s, imports, items, order) :: blocks, ?_, ?_, ?_, ?_, ?_⟩
      · rw [List.map_cons]
        exact h1.cons_cons _
      · intro s' imports' items' order' hm
        rcases List.mem_cons.1 hm with hm | hm
        · cases hm
          exact ⟨g1, g2, g3, fun p hp => (g4 p hp).1⟩
        · obtain ⟨k1, k2, k3, k4⟩ := h2 _ _ _ _ hm
          exact ⟨k1, k2, k3, fun p hp hcp => k4 p hp ((g8 p).2 (.inl hcp))⟩
      · rw [h3, g7]; simp
      · intro p
        rw [h4, g8]
        simp only [List.mem_cons, exists_eq_or_imp, or_assoc]
      · refine List.pairwise_cons.2 ⟨?_, h5⟩
        rintro ⟨s', imports', items', order'⟩ hb p hp
        obtain ⟨-, -, -, k4⟩ := h2 _ _ _ _ hb
        have := k4 p hp
        rw [g8] at this
        simp only [not_or] at this
        exact ⟨this.2.2, this.2.1⟩

/-! ### Examples and disagreements -/

/-- Four files: 1 imports 2 and 3, 2 imports 4, and 3 imports 4 if the argument says so. -/
def diamond (both : Bool) : Files Nat String := fun p =>
  match p with
  | 1 => some (some ([2, 3], ["main"]))
  | 2 => some (some ([4], ["b"]))
  | 3 => some (some (if both then [4] else [], ["c"]))
  | 4 => some (some ([], ["d"]))
  | _ => none

def main : Source Nat String := ⟨some 1, some ([2, 3], ["main"])⟩

/-- **C107 (a file imported by two files), refuted.** A program without cycles in which two files import a third is refused, and the error says that the third is already imported. -/
theorem c107_diamond_false :
    (∀ p q, Imports (diamond true) p q → p < q) ∧ (∀ p q, Imports (diamond true) p q → ∃ x, diamond true q = some (some x)) ∧
      Ends (diamond true) (fun _ _ => true) ⟨[], []⟩ main (.error (.already 4)) := by
  refine ⟨?_, ?_, 3, ?_⟩
  · rintro p q ⟨imports, items, hp, hq⟩
    unfold diamond at hp
    split at hp <;> simp at hp <;> (obtain ⟨rfl, rfl⟩ := hp; simp at hq <;> omega)
  · rintro p q ⟨imports, items, hp, hq⟩
    unfold diamond at hp
    split at hp <;> simp at hp <;> (obtain ⟨rfl, rfl⟩ := hp; simp at hq)
    · rcases hq with rfl | rfl <;> exact ⟨_, rfl⟩
    · subst hq; exact ⟨_, rfl⟩
    · subst hq; exact ⟨_, rfl⟩
  · intro n hn
    obtain ⟨n, rfl⟩ : ∃ m, n = m + 3 := ⟨n - 3, by omega⟩
    rfl

/-- **C107 (a source given twice), refuted.** A file that is compiled twice is refused as an import but accepted as a source: its items are in the program twice. -/
theorem c107_twice_false :
    ∃ c₁ c₂, Ends (diamond false) (fun _ _ => true) ⟨[], []⟩ ⟨some 4, some ([], ["d"])⟩ (.ok c₁) ∧
      Ends (diamond false) (fun _ _ => true) c₁ ⟨some 4, some ([], ["d"])⟩ (.ok c₂) ∧ c₂.items = ["d", "d"] ∧
      Ends (diamond false) (fun _ _ => true) c₁ ⟨none, some ([4], [])⟩ (.error (.already 4)) := by
  refine ⟨⟨[4], ["d"]⟩, ⟨[4, 4], ["d", "d"]⟩, ⟨1, ?_⟩, ⟨1, ?_⟩, rfl, ⟨1, ?_⟩⟩ <;>
  · intro n hn
    obtain ⟨n, rfl⟩ : ∃ m, n = m + 1 := ⟨n - 1, by omega⟩
    rfl

/-- Without the second import of file 4 the program compiles; its items come in the order of the imports. -/
example : Ends (diamond false) (fun _ _ => true) ⟨[], []⟩ main (.ok ⟨[3, 4, 2, 1], ["d", "b", "c", "main"]⟩) := by
  refine ⟨3, fun n hn => ?_⟩
  obtain ⟨n, rfl⟩ : ∃ m, n = m + 3 := ⟨n - 3, by omega⟩
  rfl

/-- The files of the example are finitely many. -/
example (both : Bool) : ∀ p, diamond both p ≠ none → p ∈ [1, 2, 3, 4] := by
  intro p hp
  unfold diamond at hp
  split at hp <;> simp_all

/-- A file that imports itself is refused, with the error of a cycle. -/
example : Ends (fun p : Nat => if p = 1 then some (some ([1], ["a"])) else none) (fun _ _ => true) ⟨[], []⟩ ⟨none, some ([1], [])⟩ (.error (.already 1)) := by
  refine ⟨2, fun n hn => ?_⟩
  obtain ⟨n, rfl⟩ : ∃ m, n = m + 2 := ⟨n - 2, by omega⟩
  rfl

/-- Items that the analyses refuse. -/
example : Ends (diamond false) (fun old new => !(old.contains "d" && new.contains "c")) ⟨[], []⟩ main (.error .rejected) := by
  refine ⟨3, fun n hn => ?_⟩
  obtain ⟨n, rfl⟩ : ∃ m, n = m + 3 := ⟨n - 3, by omega⟩
  rfl

/-- A history of a call that fails and two that succeed. -/
example : (compileMany (compile (diamond false) (fun _ _ => true) 5) ⟨[], []⟩ [⟨none, some ([7], ["x"])⟩, ⟨none, some ([2], ["y"])⟩, ⟨none, some ([4], ["z"])⟩, ⟨none, some ([3], ["w"])⟩]).items =
    ["d", "b", "y", "c", "w"] := rfl

end Scallop.Import
