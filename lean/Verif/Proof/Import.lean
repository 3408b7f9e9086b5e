import Verif.Spec.Import

/-!
# Lemmas about imports
-/

namespace Scallop.Import

variable {Path Item : Type} {fs : Files Path Item} {accept : List Item → List Item → Bool}

theorem itemsOf_append (a b : List Path) : itemsOf fs (a ++ b) = itemsOf fs a ++ itemsOf fs b := by simp [itemsOf]

theorem unfold_unique {ps o : List Path} (h : Unfold fs ps o) : ∀ {o'}, Unfold fs ps o' → o = o' := by
  induction h with
  | nil => intro o' h'; cases h'; rfl
  | cons p ps imports items o₁ o₂ hp _ _ ih1 ih2 =>
    intro o' h'
    cases h' with
    | cons _ _ imports' items' o₁' o₂' hp' h1' h2' =>
      rw [hp] at hp'
      cases hp'
      rw [ih1 h1', ih2 h2']

theorem unfold_order {ps o : List Path} (h : Unfold fs ps o) :
    (∀ p ∈ ps, p ∈ o) ∧ ∀ a p b q, o = a ++ p :: b → Imports fs p q → q ∈ a := by
  induction h with
  | nil => exact ⟨by simp, by intro a p b q h; simp at h⟩
  | cons p ps imports items o₁ o₂ hp _ _ ih1 ih2 =>
    refine ⟨?_, ?_⟩
    · intro q hq
      rcases List.mem_cons.1 hq with rfl | hq
      · simp
      · have := ih2.1 q hq; simp [this]
    · intro a q b r he hi
      rcases List.append_eq_append_iff.1 he with ⟨d, rfl, h2⟩ | ⟨d, rfl, h2⟩
      · cases d with
        | nil =>
          simp only [List.nil_append, List.cons.injEq] at h2
          obtain ⟨rfl, -⟩ := h2
          obtain ⟨imports', items', hq, hr⟩ := hi
          rw [hp] at hq
          cases hq
          simpa using ih1.1 r hr
        | cons x d =>
          simp only [List.cons_append, List.cons.injEq] at h2
          obtain ⟨rfl, h2⟩ := h2
          have := ih2.2 d q b r h2 hi
          simp [this]
      · cases d with
        | nil =>
          simp only [List.nil_append, List.cons.injEq] at h2
          obtain ⟨rfl, -⟩ := h2
          obtain ⟨imports', items', hq, hr⟩ := hi
          rw [hp] at hq
          cases hq
          simpa using ih1.1 r hr
        | cons x d =>
          simp only [List.cons_append, List.cons.injEq] at h2
          obtain ⟨rfl, h2⟩ := h2
          exact ih1.2 a q d r rfl hi

theorem unfold_acc {ps o : List Path} (h : Unfold fs ps o) : ∀ p ∈ o, Acc (fun q p => Imports fs p q) p := by
  have key : ∀ {ps o : List Path}, Unfold fs ps o → (∀ p ∈ ps, Acc (fun q p => Imports fs p q) p) ∧ ∀ p ∈ o, Acc (fun q p => Imports fs p q) p := by
    intro ps o h
    induction h with
    | nil => exact ⟨by simp, by simp⟩
    | cons p ps imports items o₁ o₂ hp _ _ ih1 ih2 =>
      have hacc : Acc (fun q p => Imports fs p q) p := by
        refine ⟨_, fun q hq => ?_⟩
        obtain ⟨imports', items', hp', hq⟩ := hq
        rw [hp] at hp'
        cases hp'
        exact ih1.1 q hq
      refine ⟨?_, ?_⟩
      · intro q hq
        rcases List.mem_cons.1 hq with rfl | hq
        · exact hacc
        · exact ih2.1 q hq
      · intro q hq
        rcases List.mem_append.1 hq with hq | hq
        · exact ih1.2 q hq
        · rcases List.mem_cons.1 hq with rfl | hq
          · exact hacc
          · exact ih2.2 q hq
  exact (key h).2

theorem acc_no_cycle {r : Path → Path → Prop} {p : Path} (h : Acc (fun q p => r p q) p) : ¬ Relation.TransGen r p p := by
  intro hc
  have hA : Acc (Relation.TransGen (fun q p => r p q)) p := h.transGen
  have hc' : Relation.TransGen (fun q p => r p q) p p := Relation.transGen_swap.1 hc
  clear hc h
  induction hA with
  | intro x _ ih => exact ih x hc' hc'

theorem unfold_reach {ps o : List Path} (h : Unfold fs ps o) : ∀ q, q ∈ o ↔ ∃ p ∈ ps, Relation.ReflTransGen (Imports fs) p q := by
  induction h with
  | nil => intro q; simp
  | cons p ps imports items o₁ o₂ hp _ _ ih1 ih2 =>
    intro q
    simp only [List.mem_append, List.mem_cons, exists_eq_or_imp, ih1, ih2]
    constructor
    · rintro (⟨r, hr, h⟩ | rfl | h)
      · exact .inl (.head ⟨imports, items, hp, hr⟩ h)
      · exact .inl .refl
      · exact .inr h
    · rintro (h | h)
      · rcases Relation.ReflTransGen.cases_head h with rfl | ⟨r, ⟨imports', items', hp', hr⟩, h⟩
        · exact .inr (.inl rfl)
        · rw [hp] at hp'
          cases hp'
          exact .inl ⟨r, hr, h⟩
      · exact .inr (.inr h)

/-! ### Acceptance -/

theorem allAccepted_append (base : List Item) (a b : List Path) :
    AllAccepted fs accept base (a ++ b) ↔ AllAccepted fs accept base a ∧ AllAccepted fs accept (base ++ itemsOf fs a) b := by
  constructor
  · intro h
    refine ⟨fun x p y he => h x p (y ++ b) (by rw [he]; simp), fun x p y he => ?_⟩
    have := h (a ++ x) p y (by rw [he]; simp)
    rwa [itemsOf_append, ← List.append_assoc] at this
  · rintro ⟨h1, h2⟩ x p y he
    rcases List.append_eq_append_iff.1 he with ⟨d, rfl, h3⟩ | ⟨d, rfl, h3⟩
    · rw [itemsOf_append, ← List.append_assoc]
      exact h2 d p y h3
    · cases d with
      | nil =>
        have := h2 [] p y (by simpa using h3.symm)
        simpa [itemsOf] using this
      | cons z d =>
        simp only [List.cons_append, List.cons.injEq] at h3
        obtain ⟨rfl, h3⟩ := h3
        exact h1 x p d rfl

theorem allAccepted_cons (base : List Item) (p : Path) (b : List Path) :
    AllAccepted fs accept base (p :: b) ↔ accept base (fileItems fs p) = true ∧ AllAccepted fs accept (base ++ fileItems fs p) b := by
  have := allAccepted_append (fs := fs) (accept := accept) base [p] b
  rw [List.singleton_append] at this
  rw [this]
  have e : itemsOf fs [p] = fileItems fs p := by simp [itemsOf]
  rw [e]
  refine and_congr_left (fun _ => ⟨fun h => ?_, fun h x q y he => ?_⟩)
  · simpa [itemsOf] using h [] p [] rfl
  · cases x with
    | nil =>
      simp only [List.nil_append, List.cons.injEq] at he
      obtain ⟨rfl, -⟩ := he
      simpa [itemsOf] using h
    | cons z x => simp at he

theorem allAccepted_nil (base : List Item) : AllAccepted fs accept base [] := by
  intro a p b h; simp at h

/-! ### Compilation -/

variable [DecidableEq Path]

/-- What the context is after some files. -/
structure After (fs : Files Path Item) (accept : List Item → List Item → Bool) (c : Ctx Path Item) (order : List Path) (c' : Ctx Path Item) : Prop where
  nodup : order.Nodup
  fresh : ∀ p ∈ order, p ∉ c.imported
  accepted : AllAccepted fs accept c.items order
  items : c'.items = c.items ++ itemsOf fs order
  imported : ∀ p, p ∈ c'.imported ↔ p ∈ c.imported ∨ p ∈ order

theorem bind_ok {ε α β : Type} {x : Except ε α} {f : α → Except ε β} {b : β} (h : x.bind f = .ok b) : ∃ a, x = .ok a ∧ f a = .ok b := by
  cases x with
  | error e => cases h
  | ok a => exact ⟨a, rfl, h⟩

omit [DecidableEq Path] in
theorem mem_addImport (c : Ctx Path Item) (o : Option Path) (p : Path) : p ∈ (c.addImport o).imported ↔ o = some p ∨ p ∈ c.imported := by
  cases o with
  | none => simp [Ctx.addImport]
  | some q => simp [Ctx.addImport, eq_comm]

omit [DecidableEq Path] in
theorem addImport_items (c : Ctx Path Item) (o : Option Path) : (c.addImport o).items = c.items := by cases o <;> rfl

theorem importAll_ok (n : Nat) : ∀ (ps : List Path) (c c' : Ctx Path Item), importAll fs (compile fs accept n) c ps = .ok c' →
    ∃ o, Unfold fs ps o ∧ After fs accept c o c' := by
  induction n with
  | zero =>
    intro ps c c' h
    cases ps with
    | nil => cases h; exact ⟨[], .nil, ⟨by simp, by simp, allAccepted_nil _, by simp [itemsOf], by simp⟩⟩
    | cons p ps =>
      simp only [importAll] at h
      split at h
      · cases h
      · split at h <;> cases h
  | succ n ihn =>
    intro ps
    induction ps with
    | nil => intro c c' h; cases h; exact ⟨[], .nil, ⟨by simp, by simp, allAccepted_nil _, by simp [itemsOf], by simp⟩⟩
    | cons p ps ih =>
      intro c c' h
      simp only [importAll] at h
      split at h
      · cases h
      · rename_i hp
        split at h
        · cases h
        · rename_i content hf
          obtain ⟨c1, h1, h2⟩ := bind_ok h
          rcases content with _ | ⟨imports, items⟩
          · cases h1
          · simp only [compile] at h1
            obtain ⟨c2, h3, h4⟩ := bind_ok h1
            obtain ⟨o₁, hu1, ha1⟩ := ihn _ _ _ h3
            split at h4
            · rename_i hacc
              cases h4
              obtain ⟨o₂, hu2, ha2⟩ := ih _ _ h2
              have hi : fileItems fs p = items := by simp [fileItems, hf]
              have hitems : c2.items = c.items ++ itemsOf fs o₁ := by rw [ha1.items, addImport_items]
              refine ⟨o₁ ++ p :: o₂, .cons p ps imports items o₁ o₂ hf hu1 hu2, ?_, ?_, ?_, ?_, ?_⟩
              · rw [List.nodup_append]
                refine ⟨ha1.nodup, ?_, ?_⟩
                · rw [List.nodup_cons]
                  refine ⟨fun hm => ?_, ha2.nodup⟩
                  exact ha2.fresh p hm ((ha1.imported p).2 (.inl ((mem_addImport _ _ _).2 (.inl rfl))))
                · rintro x hx y hy rfl
                  rcases List.mem_cons.1 hy with rfl | hy
                  · exact ha1.fresh x hx ((mem_addImport _ _ _).2 (.inl rfl))
                  · exact ha2.fresh x hy ((ha1.imported x).2 (.inr hx))
              · intro q hq hc
                rcases List.mem_append.1 hq with hq | hq
                · exact ha1.fresh q hq ((mem_addImport _ _ _).2 (.inr hc))
                · rcases List.mem_cons.1 hq with rfl | hq
                  · exact hp hc
                  · exact ha2.fresh q hq ((ha1.imported q).2 (.inl ((mem_addImport _ _ _).2 (.inr hc))))
              · rw [allAccepted_append, allAccepted_cons]
                refine ⟨by simpa only [addImport_items] using ha1.accepted, ?_, ?_⟩
                · rw [hi, ← hitems]; exact hacc
                · rw [hi, ← hitems]; exact ha2.accepted
              · rw [ha2.items, hitems, itemsOf_append]
                simp [itemsOf, hi]
              · intro q
                rw [ha2.imported, ha1.imported, mem_addImport]
                simp only [Option.some.injEq, List.mem_append, List.mem_cons]
                tauto
            · cases h4

theorem compile_ok {n : Nat} {c c' : Ctx Path Item} {s : Source Path Item} (h : compile fs accept n c s = .ok c') :
    ∃ imports items order, s.content = some (imports, items) ∧ Unfold fs imports order ∧ order.Nodup ∧ (∀ p ∈ order, p ∉ c.imported ∧ s.path ≠ some p) ∧
      AllAccepted fs accept c.items order ∧ accept (c.items ++ itemsOf fs order) items = true ∧ c'.items = c.items ++ itemsOf fs order ++ items ∧
      ∀ p, p ∈ c'.imported ↔ p ∈ c.imported ∨ s.path = some p ∨ p ∈ order := by
  cases n with
  | zero => cases h
  | succ n =>
    simp only [compile] at h
    split at h
    · cases h
    · rename_i imports items hcont
      obtain ⟨c2, h3, h4⟩ := bind_ok h
      obtain ⟨o, hu, ha⟩ := importAll_ok n _ _ _ h3
      split at h4
      · rename_i hacc
        cases h4
        have hitems : c2.items = c.items ++ itemsOf fs o := by rw [ha.items, addImport_items]
        refine ⟨imports, items, o, hcont, hu, ha.nodup, ?_, by simpa only [addImport_items] using ha.accepted, ?_, ?_, ?_⟩
        · intro p hp
          have := ha.fresh p hp
          rw [mem_addImport] at this
          tauto
        · rw [← hitems]; exact hacc
        · rw [← hitems]
        · intro p
          rw [ha.imported, mem_addImport]
          tauto
      · cases h4

/-- Files that meet the conditions are imported. -/
theorem importAll_complete {ps o : List Path} (h : Unfold fs ps o) : ∃ N, ∀ n ≥ N, ∀ c : Ctx Path Item, o.Nodup → (∀ p ∈ o, p ∉ c.imported) → AllAccepted fs accept c.items o →
    ∃ c', importAll fs (compile fs accept n) c ps = .ok c' := by
  induction h with
  | nil => exact ⟨0, fun n _ c _ _ _ => ⟨c, rfl⟩⟩
  | cons p ps imports items o₁ o₂ hf hu1 hu2 ih1 ih2 =>
    obtain ⟨N1, ih1⟩ := ih1
    obtain ⟨N2, ih2⟩ := ih2
    refine ⟨max (N1 + 1) N2, fun n hn c hnd hfr hacc => ?_⟩
    obtain ⟨n, rfl⟩ : ∃ m, n = m + 1 := ⟨n - 1, by omega⟩
    rw [List.nodup_append] at hnd
    obtain ⟨hnd1, hnd2, hdis⟩ := hnd
    rw [List.nodup_cons] at hnd2
    rw [allAccepted_append, allAccepted_cons] at hacc
    obtain ⟨hac1, hac2, hac3⟩ := hacc
    have hi : fileItems fs p = items := by simp [fileItems, hf]
    rw [hi] at hac2 hac3
    have hp : p ∉ c.imported := hfr p (by simp)
    obtain ⟨c2, h2⟩ := ih1 n (by omega) (c.addImport (some p)) hnd1 (by
      intro q hq hm
      rcases (mem_addImport _ _ _).1 hm with hm | hm
      · cases hm; exact hdis p hq p (by simp) rfl
      · exact hfr q (by simp [hq]) hm) (by simpa only [addImport_items] using hac1)
    obtain ⟨o', hu', ha'⟩ := importAll_ok n _ _ _ h2
    obtain rfl := unfold_unique hu1 hu'
    have hitems : c2.items = c.items ++ itemsOf fs o₁ := by rw [ha'.items, addImport_items]
    have hc : compile fs accept (n + 1) c ⟨some p, some (imports, items)⟩ = .ok { c2 with items := c2.items ++ items } := by
      simp only [compile, h2, Except.bind]
      rw [if_pos (by rw [hitems]; exact hac2)]
    obtain ⟨c3, h3⟩ := ih2 (n + 1) (by omega) { c2 with items := c2.items ++ items } hnd2.2 (by
      intro q hq hm
      rcases (ha'.imported q).1 hm with hm | hm
      · rcases (mem_addImport _ _ _).1 hm with hm | hm
        · cases hm; exact hnd2.1 hq
        · exact hfr q (by simp [hq]) hm
      · exact hdis q hm q (by simp [hq]) rfl) (by simp only [hitems]; exact hac3)
    refine ⟨c3, ?_⟩
    simp only [importAll, if_neg hp, hf, hc, Except.bind]
    exact h3

/-! ### Termination -/

/-- The number of files that can still be opened. -/
def remaining (files : List Path) (c : Ctx Path Item) : Nat := (files.filter (fun p => p ∉ c.imported)).length

theorem remaining_mono {files : List Path} {c c' : Ctx Path Item} (h : ∀ p, p ∈ c.imported → p ∈ c'.imported) : remaining files c' ≤ remaining files c := by
  unfold remaining
  rw [← List.countP_eq_length_filter, ← List.countP_eq_length_filter]
  refine List.countP_mono_left (fun p _ hp => ?_)
  simp only [decide_eq_true_eq] at hp ⊢
  exact fun hc => hp (h p hc)

theorem remaining_lt {files : List Path} {c c' : Ctx Path Item} {p : Path} (hf : p ∈ files) (hp : p ∉ c.imported) (hp' : p ∈ c'.imported)
    (h : ∀ q, q ∈ c.imported → q ∈ c'.imported) : remaining files c' < remaining files c := by
  unfold remaining
  have h1 : (files.filter (fun q => q ∉ c'.imported)) = ((files.filter (fun q => q ∉ c.imported)).filter (fun q => q ∉ c'.imported)) := by
    rw [List.filter_filter]
    refine List.filter_congr (fun q _ => ?_)
    by_cases h1 : q ∈ c'.imported
    · simp [h1]
    · have h2 : q ∉ c.imported := fun hh => h1 (h q hh)
      simp [h1, h2]
  rw [h1]
  refine Nat.lt_of_le_of_ne (List.length_filter_le _ _) (fun he => ?_)
  have := List.length_filter_eq_length_iff.1 he p (by simp [hf, hp])
  simp only [decide_eq_true_eq] at this
  exact this hp'

theorem compile_enough (files : List Path) (hfiles : ∀ p, fs p ≠ none → p ∈ files) : ∀ (n : Nat) (c : Ctx Path Item) (s : Source Path Item),
    remaining files (c.addImport s.path) < n → ∀ m ≥ n, compile fs accept m c s = compile fs accept n c s ∧ compile fs accept n c s ≠ .error .outOfFuel := by
  intro n
  induction n with
  | zero => intro c s h; omega
  | succ n ihn =>
    intro c s hr m hm
    obtain ⟨m, rfl⟩ : ∃ k, m = k + 1 := ⟨m - 1, by omega⟩
    have key : ∀ (ps : List Path) (c : Ctx Path Item), remaining files c ≤ n →
        importAll fs (compile fs accept m) c ps = importAll fs (compile fs accept n) c ps ∧ importAll fs (compile fs accept n) c ps ≠ .error .outOfFuel := by
      intro ps
      induction ps with
      | nil => intro c _; exact ⟨rfl, by simp [importAll]⟩
      | cons p ps ih =>
        intro c hrc
        simp only [importAll]
        split
        · exact ⟨rfl, by simp⟩
        · rename_i hp
          split
          · exact ⟨rfl, by simp⟩
          · rename_i content hf
            have hlt : remaining files (c.addImport (some p)) < n := Nat.lt_of_lt_of_le
              (remaining_lt (hfiles p (by rw [hf]; simp)) hp ((mem_addImport _ _ _).2 (.inl rfl)) (fun q hq => (mem_addImport _ _ _).2 (.inr hq))) hrc
            obtain ⟨h1, h2⟩ := ihn c ⟨some p, content⟩ hlt m (by omega)
            rw [h1]
            cases hc : compile fs accept n c ⟨some p, content⟩ with
            | error e =>
              refine ⟨rfl, ?_⟩
              rw [hc] at h2
              exact h2
            | ok c1 =>
              obtain ⟨_, _, _, _, _, _, _, _, _, _, himp⟩ := compile_ok hc
              exact ih c1 (Nat.le_trans (remaining_mono (fun q hq => (himp q).2 (.inl hq))) hrc)
    simp only [compile]
    split
    · exact ⟨rfl, by simp⟩
    · rename_i imports items hcont
      obtain ⟨h1, h2⟩ := key imports (c.addImport s.path) (by omega)
      rw [h1]
      refine ⟨rfl, ?_⟩
      cases hi : importAll fs (compile fs accept n) (c.addImport s.path) imports with
      | error e => rw [hi] at h2; exact h2
      | ok c2 =>
        simp only [Except.bind]
        split <;> simp

/-- More fuel does not change a success. -/
theorem compile_mono_ok {n : Nat} : ∀ {c c' : Ctx Path Item} {s : Source Path Item}, compile fs accept n c s = .ok c' → ∀ m ≥ n, compile fs accept m c s = .ok c' := by
  induction n with
  | zero => intro c c' s h; cases h
  | succ n ih =>
    intro c c' s h m hm
    obtain ⟨m, rfl⟩ : ∃ k, m = k + 1 := ⟨m - 1, by omega⟩
    have key : ∀ (ps : List Path) (c c' : Ctx Path Item), importAll fs (compile fs accept n) c ps = .ok c' → importAll fs (compile fs accept m) c ps = .ok c' := by
      intro ps
      induction ps with
      | nil => intro c c' h; exact h
      | cons p ps ihp =>
        intro c c' h
        simp only [importAll] at h ⊢
        split at h
        · cases h
        · rename_i hp
          rw [if_neg hp]
          split at h
          · cases h
          · obtain ⟨c1, h1, h2⟩ := bind_ok h
            rw [ih h1 m (by omega)]
            exact ihp _ _ h2
    simp only [compile] at h ⊢
    split at h
    · cases h
    · obtain ⟨c2, h1, h2⟩ := bind_ok h
      rw [key _ _ _ h1]
      exact h2

end Scallop.Import
