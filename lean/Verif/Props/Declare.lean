import Verif.Proof.Declare

/-!
# C121: which declarations of types, constructors and relations are accepted, and what they mean
-/

namespace Scallop.Declare

open Scallop.Ty (VTy)

/-- Declarations are accepted if and only if every type, constructor and relation is declared once, here and in what was compiled before, every type that is used in the declaration of a type or of a relation
was declared before it, and every type that is used in a constructor is declared somewhere. This does not depend on the order in which relations are made for constructors. -/
theorem c121_accepts_partial (gen : List Info → List Info) (hgen : ∀ l, (gen l).Perm l) (s : State) (ds : List Decl) :
    (∃ s', compile gen s ds = .ok s') ↔ Right (fun n => (s.types n).isSome) (fun r => s.declared r = true) ds := by
  rw [← source_right gen hgen s ds]
  by_cases hn : ((constructors ds).map Info.name).Nodup
  · rw [compile_eq gen s ds hn]
    by_cases he : (s.process (source gen ds)).2 = []
    · simp [hn, he]
    · simp [he]
  · obtain ⟨h1, -⟩ := Pre.visit_eq ds ⟨[], []⟩ rfl (by simp)
    have e1 : (ds.foldl Pre.visit ⟨[], []⟩).errs ≠ [] := fun h => hn (by simpa using h1.mp h)
    simp [hn, compile, e1]

theorem compile_ok {gen : List Info → List Info} {s s' : State} {ds : List Decl} (h : compile gen s ds = .ok s') :
    (s.process (source gen ds)).2 = [] ∧ s' = (s.process (source gen ds)).1 := by
  by_cases hn : ((constructors ds).map Info.name).Nodup
  · rw [compile_eq gen s ds hn] at h
    by_cases he : (s.process (source gen ds)).2 = []
    · simp only [he, ne_eq, not_true_eq_false, if_false, Except.ok.injEq] at h
      exact ⟨he, h.symm⟩
    · simp [he] at h
  · obtain ⟨h1, -⟩ := Pre.visit_eq ds ⟨[], []⟩ rfl (by simp)
    have e1 : (ds.foldl Pre.visit ⟨[], []⟩).errs ≠ [] := fun h => hn (by simpa using h1.mp h)
    simp [compile, e1] at h

/-- If declarations are accepted, each of them holds: a synonym has the value type of what it stands for, an enumeration that of unsigned numbers, a data type that of entities; relations have the value types that
are declared, and the relation of a constructor has an entity and then the value types of its arguments. -/
theorem c121_types (gen : List Info → List Info) (hgen : ∀ l, (gen l).Perm l) (s s' : State) (ds : List Decl) (h : compile gen s ds = .ok s') :
    ∀ d ∈ ds, Holds s'.types s'.relTypes d := by
  obtain ⟨he, rfl⟩ := compile_ok h
  exact source_holds gen hgen s ds he

/-- Nothing else changes: types and relations that were known keep their types, and only what is declared is known after. -/
theorem c121_others (gen : List Info → List Info) (hgen : ∀ l, (gen l).Perm l) (s s' : State) (ds : List Decl) (h : compile gen s ds = .ok s') :
    (∀ n t, s.types n = some t → s'.types n = some t) ∧ (∀ r, s.declared r = true → s'.declared r = true ∧ s'.relTypes r = s.relTypes r) ∧
    (∀ n, (s'.types n).isSome = true ↔ (s.types n).isSome = true ∨ ∃ d ∈ ds, d.typeName = some n) ∧
    (∀ r, s'.declared r = true ↔ s.declared r = true ∨ (∃ args, Decl.relation r args ∈ ds) ∨ ∃ i ∈ constructors ds, r = Ent.adtName i.name) := by
  obtain ⟨he, rfl⟩ := compile_ok h
  refine ⟨(process_keeps s _).1, (process_keeps s _).2, source_known gen hgen s ds he, fun r => ?_⟩
  rw [(process_frame _ s r).1, source_makes gen hgen ds r]
  rfl

/-- What is accepted in two parts, one after the other, is accepted at once, and the same is known. -/
theorem c121_together (gen : List Info → List Info) (hgen : ∀ l, (gen l).Perm l) (s s₁ s₂ : State) (a b : List Decl) (ha : compile gen s a = .ok s₁)
    (hb : compile gen s₁ b = .ok s₂) : compile gen s (a ++ b) = .ok s₂ := by
  have ra := (c121_accepts_partial gen hgen s a).mp ⟨_, ha⟩
  have rb := (c121_accepts_partial gen hgen s₁ b).mp ⟨_, hb⟩
  obtain ⟨-, -, k3, k4⟩ := c121_others gen hgen s s₁ a ha
  have ta := c121_types gen hgen s s₁ a ha
  have tb := c121_types gen hgen s₁ s₂ b hb
  obtain ⟨s', hs'⟩ := (c121_accepts_partial gen hgen s (a ++ b)).mpr (right_append ra rb k3 k4)
  have tab := c121_types gen hgen s s' (a ++ b) hs'
  rw [hs']
  obtain ⟨ea, rfl⟩ := compile_ok ha
  obtain ⟨eb, rfl⟩ := compile_ok hb
  obtain ⟨eab, rfl⟩ := compile_ok hs'
  have htypes := two_types gen a b s
  have hdecl : (s.process (source gen (a ++ b))).1.declared = ((s.process (source gen a)).1.process (source gen b)).1.declared := by
    funext r
    rw [Bool.eq_iff_iff, (process_frame _ s r).1, source_makes gen hgen, makes_append, (process_frame _ _ r).1, source_makes gen hgen,
      (process_frame _ s r).1, source_makes gen hgen, or_assoc]
  have hrel : (s.process (source gen (a ++ b))).1.relTypes = ((s.process (source gen a)).1.process (source gen b)).1.relTypes := by
    funext r
    by_cases hm : Makes (a ++ b) r
    · rw [htypes] at tab
      apply holds_unique hm tab
      intro d hd
      rcases List.mem_append.mp hd with hd | hd
      · apply Holds.keeps (process_keeps _ (source gen b)) d _ (ta d hd)
        rintro r (⟨args, rfl⟩ | ⟨n, vs, v, rfl, hv, rfl⟩)
        · exact (k4 r).mpr (.inr (.inl ⟨args, hd⟩))
        · exact (k4 _).mpr (.inr (.inr ⟨_, mem_constructors hd hv, rfl⟩))
      · exact tb d hd
    · have n1 := mt (makes_append a b r).mpr hm
      have no (ds : List Decl) (h : ¬ Makes ds r) : ∀ args, Decl.relation r args ∉ source gen ds :=
        fun args hc => h ((source_makes gen hgen ds r).mp ⟨args, hc⟩)
      rw [(process_frame _ s r).2 (no _ hm), (process_frame _ _ r).2 (no _ (fun h => n1 (.inr h))), (process_frame _ s r).2 (no _ (fun h => n1 (.inl h)))]
  have : ∀ x y : State, x.types = y.types → x.declared = y.declared → x.relTypes = y.relTypes → x = y := by
    intro x y h1 h2 h3
    cases x; cases y; cases h1; cases h2; cases h3; rfl
  rw [this _ _ htypes hdecl hrel]

/-- What is reported: the type or relation that is declared again, or the type that is not known; a constructor that was declared in an earlier program is reported by the name of its relation. -/
theorem c121_reports (gen : List Info → List Info) (hgen : ∀ l, (gen l).Perm l) (s : State) (n r c m : String) (t : VTy) (args : List Ty) :
    ((s.types n).isSome = true → ∀ ty vs, compile gen s [.synonym n ty] = .error [.type n] ∧ compile gen s [.enum n] = .error [.type n] ∧
      (vs = [] → compile gen s [.adt n vs] = .error [.type n])) ∧
    (s.declared r = true → compile gen s [.relation r args] = .error [.relation r]) ∧
    (s.types m = none → s.types n = none → s.declared r = false → compile gen s [.synonym n (.named m)] = .error [.unknown m] ∧
      compile gen s [.relation r (.base t :: .named m :: args)] = .error [.unknown m]) ∧
    (s.types n = none → s.declared (Ent.adtName c) = true → compile gen s [.adt n [(c, args)]] = .error [.relation (Ent.adtName c)]) := by
  have hnil : gen [] = [] := List.Perm.eq_nil (hgen [])
  have hone (i : Info) : gen [i] = [i] := List.Perm.eq_singleton (hgen [i])
  refine ⟨fun h ty vs => ⟨?_, ?_, fun hv => ?_⟩, fun h => ?_, fun h1 h2 h3 => ⟨?_, ?_⟩, fun h1 h2 => ?_⟩
  · simp [compile, Pre.visit, hnil, transformed, State.process, State.visit, State.addType, h]
  · simp [compile, Pre.visit, hnil, transformed, State.process, State.visit, State.addType, h]
  · simp [compile, Pre.visit, hnil, transformed, State.process, State.visit, State.addType, h, hv]
  · simp [compile, Pre.visit, hnil, transformed, State.process, State.visit, State.addRelation, h]
  · simp [compile, Pre.visit, hnil, transformed, State.process, State.visit, State.addType, find, h1, h2]
  · simp [compile, Pre.visit, hnil, transformed, State.process, State.visit, State.addRelation, find, findAll, h1, h3]
  · simp [compile, Pre.visit, Pre.variant, hone, transformed, State.process, State.visit, State.addType, State.addRelation, find, Info.decl, h1, h2]

/-- Terms with numbers and sums, a type of numbers that is declared after them, and a relation of terms. -/
def terms : List Decl :=
  [.adt "Expr" [("Num", [.named "N"]), ("Add", [.named "Expr", .named "Expr"])], .synonym "N" (.base (.int .i32)), .synonym "E" (.named "Expr"), .enum "Op",
    .relation "root" [.named "E", .named "Op"]]

/-- Not vacuous: terms are accepted, in both orders of their constructors. -/
example : (∃ s', compile id State.new terms = .ok s') ∧ (∃ s', compile List.reverse State.new terms = .ok s') := by
  constructor
  · refine ⟨_, rfl⟩
  · refine ⟨_, rfl⟩

/-- Not vacuous: the types of terms. -/
example : ∃ s', compile id State.new terms = .ok s' ∧ s'.relTypes "adt#Num" = some [.entity, .int .i32] ∧ s'.relTypes "root" = some [.entity, .int .usize] := by
  refine ⟨_, rfl, ?_, ?_⟩ <;> decide

/-- Not vacuous: after terms, the type `N`, the relation `root` and the constructor `Num` are known, and the type `M` is not. -/
example : ∃ s, compile id State.new terms = .ok s ∧ (s.types "N").isSome = true ∧ s.declared "root" = true ∧ s.types "M" = none ∧
    s.declared (Ent.adtName "Num") = true := by
  refine ⟨_, rfl, ?_, ?_, ?_, ?_⟩ <;> decide

/-- Not vacuous: in two parts. -/
example : ∃ s₁ s₂, compile id State.new (terms.take 2) = .ok s₁ ∧ compile id s₁ (terms.drop 2) = .ok s₂ := by
  refine ⟨_, _, rfl, rfl⟩

/-- False in general that the order of declarations does not matter: a synonym or a relation cannot be declared before a type it uses, although a constructor can; and two data types that use each other cannot be
compiled one after the other. -/
theorem c121_order_false (gen : List Info → List Info) (hgen : ∀ l, (gen l).Perm l) (a b : String) (hab : a ≠ b) (r c d : String) (hcd : c ≠ d) :
    (∀ e : Decl, e = .synonym a (.named b) ∨ e = .relation r [.named b] →
      (∃ s', compile gen State.new [.enum b, e] = .ok s') ∧ ¬ ∃ s', compile gen State.new [e, .enum b] = .ok s') ∧
    (∃ s', compile gen State.new [.adt a [(c, [.named b])], .adt b [(d, [.named a])]] = .ok s') ∧
    ¬ ∃ s', compile gen State.new [.adt a [(c, [.named b])]] = .ok s' := by
  refine ⟨?_, ?_, ?_⟩
  · rintro e (rfl | rfl)
    · rw [c121_accepts_partial gen hgen, c121_accepts_partial gen hgen]
      simp [Right, Orderly, Known, State.new, constructors, hab]
    · rw [c121_accepts_partial gen hgen, c121_accepts_partial gen hgen]
      simp [Right, Orderly, Known, State.new, constructors]
  · rw [c121_accepts_partial gen hgen]
    simp [Right, Orderly, Known, State.new, constructors, Decl.typeName, hab, hab.symm, hcd]
  · rw [c121_accepts_partial gen hgen]
    simp [Right, Orderly, Known, State.new, constructors, Decl.typeName, hab]

/-- Not vacuous: different names. -/
example : ("A" : String) ≠ "B" ∧ ("C" : String) ≠ "D" := by decide

/-- False in general that each mistake is reported once: a constructor that is declared twice in one data type is reported twice, and one declared in two data types once. -/
theorem c121_twice_false (gen : List Info → List Info) (s : State) (n m c : String) (x y : List Ty) :
    compile gen s [.adt n [(c, x), (c, y)]] = .error [.constructor c, .constructor c] ∧
    compile gen s [.adt n [(c, x)], .adt m [(c, y)]] = .error [.constructor c] := by
  constructor
  · simp [compile, Pre.visit, Pre.variant]
  · simp [compile, Pre.visit, Pre.variant]

/-- False in general that all mistakes are reported: with a constructor that is declared twice, unknown types and types that are declared twice are not. -/
theorem c121_all_false (gen : List Info → List Info) (s : State) (n m c : String) (x y : List Ty) (ds : List Decl) (hds : constructors ds = []) :
    compile gen s (.adt n [(c, x)] :: .adt m [(c, y)] :: ds) = .error [.constructor c] := by
  have hv : ∀ (ds : List Decl) (p : Pre), constructors ds = [] → (ds.foldl Pre.visit p) = p := by
    intro ds
    induction ds with
    | nil => intro p _; rfl
    | cons d ds ih =>
      intro p h
      cases d with
      | synonym a b => exact ih p h
      | enum a => exact ih p h
      | relation a b => exact ih p h
      | adt a vs =>
        simp only [constructors, List.append_eq_nil_iff, List.map_eq_nil_iff] at h
        rw [List.foldl_cons, Pre.visit, h.1]
        exact ih p h.2
  simp [compile, Pre.visit, Pre.variant, hv ds _ hds]

/-- Not vacuous: an unknown type. -/
example : constructors [.synonym "A" (.named "B"), .enum "A"] = [] := rfl

end Scallop.Declare
