import Verif.Proof.ExecRun
import Verif.Proof.PlanOrder
import Verif.Proof.StrataMain

/-!
# Compiled programs meet the conditions of their execution
-/

namespace Scallop.Plan

open Scallop.Back Scallop.Ram Scallop.Exec

variable {F T W : Type}

/-! ## The order of tuples -/

section
variable {V : Type} [LinearOrder V]

mutual
theorem tupCmp_eq : ∀ a b : Tup V, tupCmp compare a b = Tup.cmp a b
  | .val _, .val _ => by simp [tupCmp, Tup.cmp]
  | .val _, .tup _ => by simp [tupCmp, Tup.cmp]
  | .tup _, .val _ => by simp [tupCmp, Tup.cmp]
  | .tup l, .tup m => by simp [tupCmp, Tup.cmp, tupCmpList_eq l m]
theorem tupCmpList_eq : ∀ l m : List (Tup V), tupCmpList compare l m = Tup.cmpList l m
  | [], [] => by simp [tupCmpList, Tup.cmpList]
  | [], _ :: _ => by simp [tupCmpList, Tup.cmpList]
  | _ :: _, [] => by simp [tupCmpList, Tup.cmpList]
  | a :: l, b :: m => by simp [tupCmpList, Tup.cmpList, tupCmp_eq a b, tupCmpList_eq l m]
end

theorem tup_le_iff {a b : Tup V} : a ≤ b ↔ tupCmp compare a b ≠ .gt := by
  rw [tupCmp_eq]
  exact Iff.rfl

end

/-! ## Permutations that keep the order of all columns -/

theorem order_identity {args : List (Term String F)} : ∀ {l : List String} {visited n πs v m}, l.Nodup →
    (∀ x ∈ l, ∀ i ∈ visited, argPos x args ≠ some i) → permutationList args visited (l.map .val) = some (πs, v) → orderPreservingList n πs = some m →
    ∀ (j : Nat) x, l[j]? = some x → argPos x args = some (n + j)
  | [], _, _, _, _, _, _, _, _, _, j, x, hj => by simp at hj
  | y :: l, visited, n, πs, v, m, hn, hv, h, ho, j, x, hj => by
    simp only [List.map_cons, permutationList, permutation, Option.bind_eq_some_iff, Option.map_eq_some_iff] at h
    obtain ⟨r, ⟨i, hi, rfl⟩, r', hr', e⟩ := h
    have hni : i ∉ visited := fun hm => hv y (by simp) i hm hi
    rw [if_neg hni] at hr' e
    simp only [Prod.mk.injEq] at e
    obtain ⟨rfl, _⟩ := e
    simp only [orderPreservingList, orderPreservingFrom, Option.bind_eq_some_iff] at ho
    obtain ⟨k, hk, ho⟩ := ho
    split at hk
    · rename_i e
      simp only [Option.some.injEq] at hk
      subst hk e
      rw [List.nodup_cons] at hn
      cases j with
      | zero =>
        simp only [List.getElem?_cons_zero, Option.some.injEq] at hj
        subst hj
        exact hi
      | succ j =>
        have := order_identity (l := l) (visited := i :: visited) hn.2 ?_ (by rw [← hr']) ho j x (by simpa using hj)
        · rw [this]
          congr 1
          omega
        · intro z hz k hk e'
          rcases List.mem_cons.mp hk with rfl | hk
          · exact hn.1 (argPos_inj hi e' ▸ hz)
          · exact hv z (by simp [hz]) k hk e'
    · cases hk

/-- What is asked for are the variables in `b`, each once. -/
def FlatGoal (b : List String) (goal : VTuple) : Prop := ∃ l : List String, goal = .tup (l.map .val) ∧ l.Nodup ∧ ∀ x, x ∈ l ↔ x ∈ b

theorem args_vars {a : Atom String F} (h : ∀ t ∈ a.args, t.const? = none) : a.args = (atomVars a).map .var := by
  obtain ⟨p, ts⟩ := a
  simp only [atomVars] at h ⊢
  induction ts with
  | nil => rfl
  | cons t ts ih =>
    have := h t (by simp)
    cases t with
    | const _ => simp [Term.const?] at this
    | var x =>
      rw [List.filterMap_cons]
      simp only [Term.var?, List.map_cons, List.cons.injEq, true_and]
      exact ih (fun t ht => h t (by simp [ht]))

theorem matchesArgs_self (vs : List String) : matchesArgs (.tup (vs.map .val)) (vs.map (Term.var (F := F))) = true := by
  simp only [matchesArgs, List.length_map, decide_true, Bool.true_and, List.all_eq_true]
  intro p hp
  rw [List.zip_map] at hp
  simp only [List.mem_map, Prod.exists] at hp
  obtain ⟨x, y, hxy, rfl⟩ := hp
  have := List.of_mem_zip hxy
  have hxy' : x = y := by
    obtain ⟨i, hi⟩ := List.mem_iff_getElem?.mp hxy
    rw [List.getElem?_zip_eq_some] at hi
    rw [hi.1] at hi
    simpa using hi.2
  simp [hxy']

/-- A goal with all columns of an atom that keeps their order is the atom. -/
theorem order_matches {a : Atom String F} (hc : ∀ t ∈ a.args, t.const? = none) (hn : (atomVars a).Nodup) {goal : VTuple} (hg : FlatGoal (atomVars a) goal)
    {π v} (h : permutation a.args [] goal = some (π, v)) (ho : orderPreserving π = true) : matchesArgs goal a.args = true := by
  obtain ⟨l, rfl, hl, hm⟩ := hg
  simp only [permutation, Option.map_eq_some_iff] at h
  obtain ⟨r, hr, e⟩ := h
  simp only [Prod.mk.injEq] at e
  obtain ⟨rfl, _⟩ := e
  simp only [orderPreserving, orderPreservingFrom, Option.isSome_iff_exists] at ho
  obtain ⟨m, ho⟩ := ho
  have key := order_identity (args := a.args) (l := l) (visited := []) (n := 0) hl (by simp) (by rw [hr]) ho
  rw [args_vars hc] at key ⊢
  have hlen : l.length = (atomVars a).length := (List.perm_ext_iff_of_nodup hl hn).mpr hm |>.length_eq
  have : l = atomVars a := by
    refine List.ext_getElem? fun j => ?_
    cases hj : l[j]? with
    | none =>
      rw [List.getElem?_eq_none_iff] at hj
      rw [eq_comm, List.getElem?_eq_none_iff]
      omega
    | some x =>
      have := argPos_get (key j x hj)
      rw [Nat.zero_add, List.getElem?_map] at this
      cases e : (atomVars a)[j]? with
      | none => rw [e] at this; cases this
      | some y => rw [e] at this; simpa [eq_comm] using this
  rw [this]
  exact matchesArgs_self _

/-! ## Plans of rules -/

/-- Plans as they are made for rules without foreign predicates: negations above joins; no variable twice in an atom without constants. `Q` are the
aggregators, `M` says that there may be negations. -/
def Neat (Q : String → Prop) (M : Prop) : Bool → Plan F → Prop
  | _, .unit => True
  | _, .reduce r => Q r.aggregator
  | _, .ground a => (∀ t ∈ a.args, t.const? = none) → (atomVars a).Nodup
  | b, .project _ d _ | b, .filter _ d _ => Neat Q M b d
  | _, .join d1 d2 => Neat Q M false d1 ∧ Neat Q M false d2
  | b, .antijoin d1 d2 => b = true ∧ M ∧ Neat Q M true d1 ∧ ∃ a, d2 = .ground a
  | _, .fpGround _ _ | _, .fpConstraint _ _ _ | _, .fpJoin _ _ _ => False

theorem Neat.weaken {Q : String → Prop} {M : Prop} : ∀ {d : Plan F} {b}, Neat Q M false d → Neat Q M b d
  | .unit, _, _ => trivial
  | .reduce _, _, h => h
  | .ground _, _, h => h
  | .project _ d _, _, h => Neat.weaken (d := d) h
  | .filter _ d _, _, h => Neat.weaken (d := d) h
  | .join _ _, _, h => h
  | .antijoin _ _, _, h => by simp [Neat] at h
  | .fpGround _ _, _, h => h
  | .fpConstraint _ _ _, _, h => h
  | .fpJoin _ _ _, _, h => h

/-! ## What the translation yields -/

theorem static_positive : ∀ {d : Dataflow F} {own}, Static own d → Positive d := by
  intro d
  induction d with
  | leaf l => intro own h; cases l <;> simp_all [Static, Positive]
  | un o d ih => intro own h; cases o <;> simp only [Static] at h <;> exact ih h
  | bin o d1 d2 _ _ => intro own h; cases o <;> simp [Static] at h
  | project d e ih => intro own h; exact ih h

theorem positive_stratified : ∀ {d : Dataflow F} {own}, Positive d → Stratified own d := by
  intro d
  induction d with
  | leaf l => intro own h; cases l <;> simp_all [Stratified, Positive]
  | un o d ih => intro own h; cases o <;> exact ih h
  | bin o d1 d2 ih1 ih2 =>
    intro own h
    cases o <;> simp only [Positive] at h <;> first | exact h.elim | exact h | exact ⟨ih1 h.1, ih2 h.2⟩
  | project d e ih => intro own h; exact ih h

theorem static_foreign {R : Runtime F T} : ∀ {d : Dataflow F} {own}, Static own d → ForeignOk R d := by
  intro d
  induction d with
  | leaf l => intro own h; trivial
  | un o d ih => intro own h; cases o <;> simp only [Static] at h <;> exact ih h
  | bin o d1 d2 _ _ => intro own h; cases o <;> simp [Static] at h
  | project d e ih => intro own h; exact ih h

theorem static_discrete {c : Prov T W} {R : Runtime F T} : ∀ {d : Dataflow F} {own}, Static own d → Discrete c R d := by
  intro d
  induction d with
  | leaf l => intro own h; cases l <;> simp_all [Static, Discrete]
  | un o d ih => intro own h; cases o <;> simp only [Static] at h <;> exact ih h
  | bin o d1 d2 _ _ => intro own h; cases o <;> simp [Static] at h
  | project d e ih => intro own h; exact ih h

variable [LinearOrder (Val F)]

/-- The conditions on dataflows, but for which relations belong to which strata. -/
structure Nice (c : Prov T W) (R : Runtime F T) (d : Dataflow F) : Prop where
  strat : Stratified [] d
  sorted : WellSorted R.X d
  foreign : ForeignOk R d
  discrete : Discrete c R d

/-- The same for the dataflows of the relations asked for. -/
def St.Nice (c : Prov T W) (R : Runtime F T) (s : St F) : Prop := ∀ n d, (n, d) ∈ s.temps ∨ (n, d) ∈ s.negs → Plan.Nice c R d

/-- The result of a translation. -/
structure NiceOut (c : Prov T W) (R : Runtime F T) (neg b : Bool) (bound : List String) (goal : VTuple) (p : DProp) (r : Dataflow F × St F) : Prop where
  nice : Nice c R r.1
  st : r.2.Nice c R
  sorted : p.needSorted = true → OutSortedLe R.X r.1
  strict : neg = false → p.needSorted = true → FlatGoal bound goal → OutSorted R.X r.1
  pos : b = false → p.needSorted = true → Positive r.1
  static : neg = true → Static [] r.1

section
variable {c : Prov T W} {R : Runtime F T} {E : Plan.Env F} {bound : List String} {goal : VTuple} {b neg : Bool}

theorem rel_nice (r : String) : Nice c R (.leaf (.rel r)) := ⟨trivial, trivial, trivial, trivial⟩

theorem createTemp_nice {s : St F} {d : Dataflow F} (hs : s.Nice c R) (hd : Nice c R d) (p : DProp) : NiceOut c R neg b bound goal p (createTemp s d) := by
  refine ⟨rel_nice _, ?_, fun _ => trivial, fun _ _ _ => trivial, fun _ _ => trivial, fun _ => by simp [createTemp, Static]⟩
  intro n d' h
  simp only [createTemp, List.mem_append, List.mem_singleton, Prod.mk.injEq] at h
  rcases h with (h | ⟨_, rfl⟩) | h
  · exact hs n d' (Or.inl h)
  · exact hd
  · exact hs n d' (Or.inr h)

theorem createNeg_nice {s : St F} {d : Dataflow F} (hs : s.Nice c R) (hd : Nice c R d) (p : DProp) : NiceOut c R neg b bound goal p (createNeg s d) := by
  refine ⟨rel_nice _, ?_, fun _ => trivial, fun _ _ _ => trivial, fun _ _ => trivial, fun _ => by simp [createNeg, Static]⟩
  intro n d' h
  simp only [createNeg, List.mem_append, List.mem_singleton, Prod.mk.injEq] at h
  rcases h with h | h | ⟨_, rfl⟩
  · exact hs n d' (Or.inl h)
  · exact hs n d' (Or.inr h)
  · exact hd

theorem process_nice {s : St F} {d : Dataflow F} {p : DProp} (hp : p.inPlace = false) (hs : s.Nice c R) (hd : Nice c R d) (hn : neg = true → Static [] d) :
    NiceOut c R neg b bound goal p (process p s d) := by
  rw [process]
  split
  · split
    · exact createNeg_nice hs hd p
    · split
      · rename_i h
        rw [hp] at h
        cases h
      · exact createTemp_nice hs hd p
  · rename_i h
    exact ⟨hd, hs, fun h' => absurd h' h, fun _ h' => absurd h' h, fun _ h' => absurd h' h, hn⟩

theorem Nice.ofStatic {d : Dataflow F} (h : Static [] d) (hw : WellSorted R.X d) : Nice c R d :=
  ⟨positive_stratified (static_positive h), hw, static_foreign h, static_discrete h⟩

theorem NiceOut.ofStatic {d : Dataflow F} {s : St F} {p : DProp} (h : Static [] d) (hw : WellSorted R.X d) (hs : s.Nice c R)
    (h1 : p.needSorted = true → OutSortedLe R.X d) (h2 : neg = false → p.needSorted = true → FlatGoal bound goal → OutSorted R.X d) :
    NiceOut c R neg b bound goal p (d, s) :=
  ⟨.ofStatic h hw, hs, h1, h2, fun _ _ => static_positive h, fun _ => h⟩

/-- Atoms without constants. -/
theorem groundNoConst_nice {a : Atom String F} {p : DProp} {s : St F} {r} (hs : s.Nice c R)
    (ha : neg = false → FlatGoal bound goal → (∀ t ∈ a.args, t.const? = none) ∧ (atomVars a).Nodup ∧ FlatGoal (atomVars a) goal)
    (h : groundNoConst goal a p s = some r) : NiceOut c R neg b bound goal p r := by
  rw [groundNoConst] at h
  split at h
  · simp only [Option.some.injEq] at h
    subst h
    exact .ofStatic (by simp [Static]) trivial hs (fun _ => trivial) (fun _ _ _ => trivial)
  · rename_i hm
    simp only [Option.bind_eq_some_iff] at h
    obtain ⟨⟨π, v⟩, hπ, e, he, f, hf, h⟩ := h
    have hle : orderPreserving π = true → ∀ x y x' y' : Tup (Val F), x ≤ y → e.eval R.X x = .ok x' → e.eval R.X y = .ok y' → x' ≤ y' := by
      intro ho x y x' y' hxy hx hy
      rw [tup_le_iff] at hxy ⊢
      exact orderPreserving_le compare ho he hx hy hxy
    have hno : orderPreserving π = true → neg = false → FlatGoal bound goal → False := by
      intro ho hn hg
      obtain ⟨h1, h2, h3⟩ := ha hn hg
      exact hm (order_matches h1 h2 h3 hπ ho)
    cases f with
    | some k =>
      simp only at h
      split at h
      · have hs' : St.Nice c R { s with perms := s.perms ++ [(a.predicate, π)] } := hs
        have hd : Nice c R (.project (.un (.filter k) (.leaf (.rel a.predicate))) e) := .ofStatic (by simp [Static]) trivial
        simp only [Option.some.injEq] at h
        subst h
        split
        · exact createNeg_nice hs' hd p
        · exact createTemp_nice hs' hd p
      · rename_i hcond
        simp only [Option.some.injEq] at h
        subst h
        refine .ofStatic (by simp [Static]) trivial hs (fun hn => ?_) (fun hng hn hg => ?_)
        · rw [hn, Bool.true_and, Bool.not_eq_true', Bool.not_eq_false] at hcond
          exact ⟨trivial, hle hcond⟩
        · rw [hn, Bool.true_and, Bool.not_eq_true', Bool.not_eq_false] at hcond
          exact (hno hcond hng hg).elim
    | none =>
      simp only at h
      split at h
      · simp only [Option.some.injEq] at h
        subst h
        exact .ofStatic (by simp [Static]) trivial hs (fun _ => trivial) (fun _ _ _ => trivial)
      · rename_i hcond
        simp only [Option.some.injEq] at h
        subst h
        refine .ofStatic (by simp [Static]) trivial hs (fun hn => ?_) (fun hng hn hg => ?_)
        · rw [hn, Bool.true_and, Bool.not_eq_true', Bool.not_eq_false] at hcond
          exact ⟨trivial, hle hcond⟩
        · rw [hn, Bool.true_and, Bool.not_eq_true', Bool.not_eq_false] at hcond
          exact (hno hcond hng hg).elim

/-- Atoms. -/
theorem groundFlow_nice {a : Atom String F} {p : DProp} {s : St F} {r} (hp : p.inPlace = false) (hs : s.Nice c R)
    (ha : neg = false → (∀ t ∈ a.args, t.const? = none) → (atomVars a).Nodup) (h : groundFlow E goal a p s = some r) :
    NiceOut c R neg b (atomVars a) goal p r := by
  rw [groundFlow] at h
  split at h
  · rename_i hempty
    split at h
    · simp only [Option.some.injEq] at h
      subst h
      exact .ofStatic (by simp [Static]) trivial hs (fun _ => trivial) (fun _ _ _ => trivial)
    · rename_i hm
      simp only [Option.map_eq_some_iff] at h
      obtain ⟨e, he, rfl⟩ := h
      refine .ofStatic (by simp [Static]) trivial hs (fun _ => ⟨trivial, ?_⟩) (fun _ _ hg => ?_)
      · intro x y x' y' _ hx hy
        rw [tup_le_iff, projection_nil compare he hx hy]
        decide
      · obtain ⟨l, rfl, _, hl⟩ := hg
        have hargs : a.args = [] := by simpa using hempty
        have : l = [] := by
          refine List.eq_nil_iff_forall_not_mem.mpr fun x hx => ?_
          have := (hl x).mp hx
          simp [atomVars, hargs] at this
        subst this
        rw [hargs] at hm
        exact absurd rfl hm
  · split at h
    · rename_i hconst
      simp only [Option.bind_eq_some_iff] at h
      obtain ⟨st, _, h⟩ := h
      split at h
      · simp only [groundStatic, Option.bind_eq_some_iff, Option.map_eq_some_iff] at h
        obtain ⟨r1, h1, es, _, f, _, e, _, rfl⟩ := h
        have m := groundNoConst_nice (neg := true) (b := b) (bound := []) hs (by intro h; cases h) h1
        have hst : Static [] (.project (.un (.filter f) r1.1) e) := m.static rfl
        exact process_nice hp m.st (.ofStatic hst m.nice.sorted) (fun _ => hst)
      · simp only [groundDynamic, Option.bind_eq_some_iff, Option.map_eq_some_iff] at h
        obtain ⟨r1, h1, e, _, rfl⟩ := h
        have m := groundNoConst_nice (neg := true) (b := b) (bound := []) hs (by intro h; cases h) h1
        have hst : Static [] (.project (.un (.find (single ((constsFrom 0 a.args).map Prod.snd))) r1.1) e) := m.static rfl
        exact process_nice hp m.st (.ofStatic hst ⟨m.nice.sorted, m.sorted rfl⟩) (fun _ => hst)
    · rename_i hconst
      refine groundNoConst_nice hs ?_ h
      intro hn hg
      have hc : ∀ t ∈ a.args, t.const? = none := by
        intro t ht
        by_contra hne
        exact hconst (List.any_eq_true.mpr ⟨t, ht, by simpa [Option.isSome_iff_ne_none] using hne⟩)
      exact ⟨hc, ha hn hc, hg⟩

theorem projectFlow_nice {sub : VTuple → DProp → St F → Res F} {bd : List String}
    (hsub : ∀ goal p s r, p.inPlace = false → s.Nice c R → sub goal p s = some r → NiceOut c R false b bd goal p r)
    (hb : ∀ x ∈ bd, x ∈ bound) :
    ∀ {fuel goal assigns p s r}, p.inPlace = false → s.Nice c R → projectFlow E sub bd fuel goal assigns p s = some r →
      NiceOut c R false b bound goal p r
  | 0, _, _, _, _, _, _, _, h => by simp [projectFlow] at h
  | fuel + 1, goal, assigns, p, s, r, hp, hs, h => by
    rw [projectFlow] at h
    simp only at h
    split at h
    · rename_i hempty
      have m := hsub goal p s r hp hs h
      refine ⟨m.nice, m.st, m.sorted, fun hn hns hg => m.strict hn hns ?_, m.pos, m.static⟩
      obtain ⟨l, rfl, hl, hm⟩ := hg
      refine ⟨l, rfl, hl, fun x => ⟨fun hx => ?_, fun hx => (hm x).mpr (hb x hx)⟩⟩
      by_contra hne
      have : x ∈ (vars (.tup (l.map .val))).filter (fun v => decide (v ∉ bd)) :=
        List.mem_filter.mpr ⟨mem_vars.mpr (by rw [leaves_vals]; exact hx), by simpa using hne⟩
      rw [List.isEmpty_iff.mp hempty] at this
      cases this
    · split at h
      · cases h
      · simp only [Option.bind_eq_some_iff, Option.map_eq_some_iff] at h
        obtain ⟨r1, h1, e, _, rfl⟩ := h
        have m := projectFlow_nice hsub hb (p := { p with needSorted := false }) hp hs h1
        exact process_nice hp m.st ⟨m.nice.strat, m.nice.sorted, m.nice.foreign, m.nice.discrete⟩ (by intro h; cases h)

theorem fromVars_false_flat {l bd : List String} (h : ∀ x, x ∈ l ↔ x ∈ bd) : FlatGoal bd (fromVars l false) := by
  refine ⟨uniq l, ?_, nodup_uniq l, fun x => by rw [mem_uniq, h x]⟩
  unfold fromVars
  split
  · rename_i h1 h2
    cases h2
  · rename_i h1
    rfl

omit [LinearOrder (Val F)] in
theorem commonGoal_flat {Wd : World F} (hO : E.Orders) {d1 d2 : Plan F} {n1 n2 b1 b2} (h1 : Fits Wd E d1 n1 b1)
    (h2 : Fits Wd E d2 n2 b2) (hs : ∀ x, x ∈ d1.bounded ↔ x ∈ d2.bounded) (hd : d1.directAtom.isSome ∨ d2.directAtom.isSome) :
    FlatGoal d1.bounded (commonGoal E goal d1 d2) := by
  have key : ∀ a : Atom String F, (∀ x, x ∈ d1.bounded ↔ x ∈ atomVars a) → FlatGoal d1.bounded (fromVars (E.sortOrder (uniq (atomVars a))) false) := by
    intro a ha
    exact fromVars_false_flat (fun x => by rw [(hO.sort _).mem_iff, mem_uniq, ha x])
  unfold commonGoal
  cases e1 : d1.directAtom with
  | some a => exact key a (directAtom_bounded h1 e1)
  | none =>
    cases e2 : d2.directAtom with
    | some a => exact key a (fun x => (hs x).trans (directAtom_bounded h2 e2 x))
    | none => rw [e1, e2] at hd; simp at hd

theorem FlatGoal.congr {b1 b2 : List String} (h : ∀ x, x ∈ b1 ↔ x ∈ b2) (hg : FlatGoal b1 goal) : FlatGoal b2 goal := by
  obtain ⟨l, e, hl, hm⟩ := hg
  exact ⟨l, e, hl, fun x => (hm x).trans (h x)⟩

variable {Q : String → Prop} {M : Prop}

/-- The dataflow of a plan meets the conditions. -/
theorem toRam_nice {Wd : World F} (hO : E.Orders) (hE : ∀ r, E.indexed r = false) (hQ : ∀ a, Q a → R.TagFree a) (hM : M → ∀ x y, c.minus x y = none) :
    ∀ {d : Plan F} {b need dup goal p s r}, Neat Q M b d → Fits Wd E d need dup → p.inPlace = false → s.Nice c R → toRam E d goal p s = some r →
      NiceOut c R false b d.bounded goal p r
  | .unit, b, need, dup, goal, p, s, r, hd, hf, hp, hs, h => by
    simp only [toRam, Option.map_eq_some_iff] at h
    obtain ⟨t, _, rfl⟩ := h
    exact ⟨⟨trivial, trivial, trivial, trivial⟩, hs, fun _ => trivial, fun _ _ _ => trivial, fun _ _ => trivial, by intro h; cases h⟩
  | .reduce q, b, need, dup, goal, p, s, r, hd, hf, hp, hs, h => by
    simp only [toRam, reduceFlow, Option.map_eq_some_iff] at h
    obtain ⟨e, _, rfl⟩ := h
    exact process_nice hp hs ⟨⟨by simp, by simp⟩, trivial, trivial, hQ _ hd⟩ (by intro h; cases h)
  | .ground a, b, need, dup, goal, p, s, r, hd, hf, hp, hs, h => groundFlow_nice hp hs (fun _ => hd) h
  | .project bs d as, b, need, dup, goal, p, s, r, hd, hf, hp, hs, h =>
    projectFlow_nice (bound := bs) (fun _ _ _ _ hp hs h => toRam_nice (d := d) hO hE hQ hM hd hf.2.2.2.2 hp hs h) (fun x hx => (hf.1 x).mpr (Or.inl hx)) hp hs h
  | .filter bs d cs, b, need, dup, goal, p, s, r, hd, hf, hp, hs, h => by
    simp only [toRam, Option.bind_eq_some_iff, Option.map_eq_some_iff] at h
    obtain ⟨r1, h1, f, _, e, _, rfl⟩ := h
    have m := toRam_nice (d := d) hO hE hQ hM hd hf.2.2.2 hp hs h1
    exact process_nice hp m.st ⟨m.nice.strat, m.nice.sorted, m.nice.foreign, m.nice.discrete⟩ (by intro h; cases h)
  | .join d1 d2, b, need, dup, goal, p, s, r, hd, hf, hp, hs, h => by
    have hp' : ({ p with needSorted := true, isNegative := false } : DProp).inPlace = false := hp
    rw [toRam] at h
    simp only at h
    split at h
    · simp only [Option.bind_eq_some_iff, Option.map_eq_some_iff] at h
      obtain ⟨r1, h1, r2, h2, e, _, rfl⟩ := h
      have m := toRam_nice hO hE hQ hM hd.1 hf.2.1 hp' hs h1
      have n := toRam_nice hO hE hQ hM hd.2 hf.2.2 hp' m.st h2
      exact process_nice hp n.st ⟨⟨m.pos rfl rfl, n.pos rfl rfl⟩, ⟨m.nice.sorted, n.nice.sorted⟩, ⟨m.nice.foreign, n.nice.foreign⟩,
        ⟨m.nice.discrete, n.nice.discrete⟩⟩ (by intro h; cases h)
    · rename_i hjv
      split at h
      · rename_i hss
        simp only [Option.bind_eq_some_iff] at h
        obtain ⟨r1, h1, r2, h2, h⟩ := h
        have m := toRam_nice hO hE hQ hM hd.1 hf.2.1 hp' hs h1
        have n := toRam_nice hO hE hQ hM hd.2 hf.2.2 hp' m.st h2
        have hss' := sameSet_iff.mp hss
        have hda : d1.directAtom.isSome ∨ d2.directAtom.isSome := by
          rcases hf.1 hss with h | h
          · rw [h] at hjv
            simp at hjv
          · exact h
        have hfl := commonGoal_flat (goal := goal) hO hf.2.1 hf.2.2 hss' hda
        have o1 := m.strict rfl rfl hfl
        have o2 := n.strict rfl rfl (hfl.congr hss')
        have hn : Nice c R (.bin .intersect r1.1 r2.1) := ⟨⟨m.pos rfl rfl, n.pos rfl rfl⟩, ⟨m.nice.sorted, n.nice.sorted, o1, o2⟩,
          ⟨m.nice.foreign, n.nice.foreign⟩, ⟨m.nice.discrete, n.nice.discrete⟩⟩
        split at h
        · simp only [Option.some.injEq] at h
          subst h
          exact ⟨hn, n.st, fun _ => ⟨o1, o2⟩, fun _ _ _ => ⟨o1, o2⟩, fun _ _ => hn.strat, by intro h; cases h⟩
        · simp only [Option.map_eq_some_iff] at h
          obtain ⟨e, _, rfl⟩ := h
          exact process_nice hp n.st ⟨hn.strat, hn.sorted, hn.foreign, hn.discrete⟩ (by intro h; cases h)
      · simp only [Option.bind_eq_some_iff, Option.map_eq_some_iff] at h
        obtain ⟨r1, h1, r2, h2, e, _, h⟩ := h
        have m := toRam_nice hO hE hQ hM hd.1 hf.2.1 hp' hs h1
        have n := toRam_nice hO hE hQ hM hd.2 hf.2.2 hp' m.st h2
        split at h
        · rename_i rel hrel
          unfold indexedVec? at hrel
          split at hrel
          · rw [hE] at hrel
            simp at hrel
          · cases hrel
        · subst h
          exact process_nice hp n.st ⟨⟨m.pos rfl rfl, n.pos rfl rfl⟩, ⟨m.nice.sorted, n.nice.sorted, m.sorted rfl, n.sorted rfl⟩,
            ⟨m.nice.foreign, n.nice.foreign⟩, ⟨m.nice.discrete, n.nice.discrete⟩⟩ (by intro h; cases h)
  | .antijoin d1 d2, b, need, dup, goal, p, s, r, hd, hf, hp, hs, h => by
    obtain ⟨rfl, hMh, hd1, a, rfl⟩ := hd
    have hp1 : ({ p with needSorted := true, isNegative := false } : DProp).inPlace = false := hp
    have hp2 : ({ p with needSorted := true, isNegative := true } : DProp).inPlace = false := hp
    rw [toRam] at h
    simp only at h
    split at h
    · rename_i hss
      simp only [Option.bind_eq_some_iff] at h
      obtain ⟨r1, h1, r2, h2, h⟩ := h
      have m := toRam_nice hO hE hQ hM hd1 hf.2.1 hp1 hs h1
      have n := groundFlow_nice (neg := true) (b := true) hp2 m.st (by intro h; cases h) h2
      have hss' := sameSet_iff.mp hss
      have hfl := commonGoal_flat (goal := goal) hO hf.2.1 hf.2.2 hss' (hf.1 hss)
      have o1 := m.strict rfl rfl hfl
      have hn : Nice c R (.bin .difference r1.1 r2.1) := ⟨⟨m.nice.strat, n.static rfl⟩, ⟨m.nice.sorted, n.nice.sorted, o1, n.sorted rfl⟩,
          ⟨m.nice.foreign, n.nice.foreign⟩, ⟨hM hMh, m.nice.discrete⟩⟩
      split at h
      · simp only [Option.some.injEq] at h
        subst h
        exact ⟨hn, n.st, fun _ => o1, fun _ _ _ => o1, by (intro h; cases h), by intro h; cases h⟩
      · simp only [Option.map_eq_some_iff] at h
        obtain ⟨e, _, rfl⟩ := h
        exact process_nice hp n.st ⟨hn.strat, hn.sorted, hn.foreign, hn.discrete⟩ (by intro h; cases h)
    · simp only [Option.bind_eq_some_iff, Option.map_eq_some_iff] at h
      obtain ⟨r1, h1, r2, h2, e, _, rfl⟩ := h
      have m := toRam_nice hO hE hQ hM hd1 hf.2.1 hp1 hs h1
      have n := groundFlow_nice (neg := true) (b := true) hp2 m.st (by intro h; cases h) h2
      exact process_nice hp n.st ⟨⟨m.nice.strat, n.static rfl⟩, ⟨m.nice.sorted, n.nice.sorted, m.sorted rfl, n.sorted rfl⟩,
          ⟨m.nice.foreign, n.nice.foreign⟩, ⟨hM hMh, m.nice.discrete⟩⟩ (by intro h; cases h)
  | .fpGround a free, _, _, _, goal, p, s, r, hd, _, _, hs, h => hd.elim
  | .fpConstraint _ _ _, _, _, _, goal, p, s, r, hd, _, _, hs, h => hd.elim
  | .fpJoin _ _ _, _, _, _, goal, p, s, r, hd, _, _, hs, h => hd.elim

end

end Scallop.Plan
