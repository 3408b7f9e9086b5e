import Verif.Spec.Exec
import Verif.Proof.ExecReduce
import Verif.Proof.Semantics
import Verif.Proof.Reads

/-!
# The dataflows that are built have the meaning of the dataflows of the program
-/

namespace Scallop.Exec

open Scallop.Ram Scallop.Plan

variable {F T W : Type} [LinearOrder (Val F)]

theorem setting_local (c : Prov T W) (R : Runtime F T) : (R.setting c).Local := by
  have key : ∀ J J' a p g, (∀ t, J p t ↔ J' p t) → (∀ r, g = .join r → ∀ t, J r t ↔ J' r t) → ∀ t, (R.setting c).red J a p g t → (R.setting c).red J' a p g t := by
    rintro J J' a p g h1 h2 t ⟨agg, inp, bs, e1, e2, e3⟩
    refine ⟨agg, inp, bs, e1, fun r hr => ?_, e3⟩
    obtain ⟨l, hl, hs, hm⟩ := e2 r hr
    refine ⟨l, hl, hs, fun t => (hm t).trans ?_⟩
    rcases hr with rfl | hr
    · exact h1 t
    · exact h2 r hr t
  exact fun J J' a p g h1 h2 t => ⟨key J J' a p g h1 h2 t, key J' J a p g (fun t => (h1 t).symm) (fun r hr t => (h2 r hr t).symm) t⟩

omit [LinearOrder (Val F)] in
theorem tuples_flatten_congr {bs bs' : List (List (Elem (Tup (Val F)) T))} (h : bs.map tups = bs'.map tups) (t : Tup (Val F)) : t ∈ tuples bs.flatten ↔ t ∈ tuples bs'.flatten := by
  have := congrArg List.flatten h
  rw [← List.map_flatten, ← List.map_flatten] at this
  rw [← mem_tups, ← mem_tups]
  show t ∈ List.map Elem.tuple _ ↔ t ∈ List.map Elem.tuple _
  rw [this]

/-- The input collections hold what the interpretation says. -/
def InputsOk (inp : Db F T) (J : Interp (Tup (Val F))) : Prop := ∀ r a, inp r = some a → ∃ l, a = .sorted l ∧ Contents l (J r)

theorem reduce_sem (c : Prov T W) {R : Runtime F T} {a : String} (hR : R.TagFree a) {inp : Db F T} {J : Interp (Tup (Val F))} (hi : InputsOk inp J) {p : String} {g : GroupBy}
    {agg : Agg.Aggregator (Val F) T} (ha : R.aggs a = some agg) {bs} (hb : reduceBatches c agg inp p g = some bs) (t : Tup (Val F)) :
    t ∈ tuples bs.flatten ↔ (R.setting c).red J a p g t := by
  have hblind : Blind agg := fun l l' h => hR agg ha l l' h
  have hin : ∀ r, (r = p ∨ g = .join r) → ∃ l, inp r = some (.sorted l) ∧ Contents l (J r) := by
    intro r hr
    have : (inp r).isSome := by
      cases g with
      | none =>
        rcases hr with rfl | hr
        · cases h : inp r with
          | none => simp [reduceBatches, h] at hb
          | some _ => rfl
        · cases hr
      | implicit =>
        rcases hr with rfl | hr
        · cases h : inp r with
          | none => simp [reduceBatches, h] at hb
          | some _ => rfl
        · cases hr
      | join q =>
        cases h : inp p with
        | none => simp [reduceBatches, h] at hb
        | some x =>
          cases h' : inp q with
          | none => simp [reduceBatches, h, h'] at hb
          | some y =>
            rcases hr with rfl | hr
            · simp [h]
            · cases hr; simp [h']
    obtain ⟨x, hx⟩ := Option.isSome_iff_exists.mp this
    obtain ⟨l, rfl, hl⟩ := hi r x hx
    exact ⟨l, hx, hl⟩
  constructor
  · exact fun h => ⟨agg, inp, bs, ha, hin, hb, h⟩
  · rintro ⟨agg', inp', bs', ha', hin', hb', ht⟩
    rw [ha] at ha'
    cases ha'
    refine (tuples_flatten_congr ?_ t).mpr ht
    obtain ⟨l, hl, cl⟩ := hin p (Or.inl rfl)
    obtain ⟨l', hl', cl'⟩ := hin' p (Or.inl rfl)
    have e := contents_unique cl cl'
    cases g with
    | none =>
      simp only [reduceBatches, hl, hl', Option.bind_some, Coll.elems] at hb hb'
      have := singleGroup_congr hblind e
      rw [hb, hb'] at this
      exact Option.some.inj this
    | implicit =>
      simp only [reduceBatches, hl, hl', Option.bind_some, Coll.elems] at hb hb'
      have := implicitGroup_congr hblind e
      rw [hb, hb'] at this
      exact Option.some.inj this
    | join q =>
      obtain ⟨m, hm, cm⟩ := hin q (Or.inr rfl)
      obtain ⟨m', hm', cm'⟩ := hin' q (Or.inr rfl)
      simp only [reduceBatches, hl, hl', hm, hm', Option.bind_some, Coll.elems] at hb hb'
      have := joinGroup_congr c hblind (contents_unique cm cm') e
      rw [hb, hb'] at this
      exact Option.some.inj this

omit [LinearOrder (Val F)] in
theorem fpArgs_iff {X : Ext F} : ∀ {es : List (Expr F)} (_ : ∀ e ∈ es, (∃ a, e = .access a) ∨ ∃ v, e = .const v) {t : Tup (Val F)} {vs : List (Val F)},
    fpArgs es t = some vs ↔ argVals X es t vs
  | [], _, t, vs => by
    unfold fpArgs argVals Expr.evalList
    cases vs <;> simp
  | e :: es, h, t, vs => by
    have ih := fun vs => fpArgs_iff (X := X) (es := es) (fun e he => h e (List.mem_cons_of_mem _ he)) (t := t) (vs := vs)
    unfold fpArgs argVals at ih ⊢
    rw [List.mapM_cons]
    simp only [Expr.evalList]
    rcases h e List.mem_cons_self with ⟨a, rfl⟩ | ⟨v, rfl⟩
    · simp only [Expr.eval]
      cases hp : t.atPath a with
      | none => simp [Outcome.bind]
      | some u =>
        cases u with
        | tup us =>
          simp only [Option.bind_eq_bind, Option.bind_some, Option.bind_none, Outcome.bind]
          constructor
          · intro h; cases h
          · cases hq : Expr.evalList X es t <;> cases vs <;> simp
        | val v =>
          simp only [Option.bind_eq_bind, Option.bind_some, Outcome.bind]
          cases vs with
          | nil =>
            constructor
            · intro h
              simp only [Option.pure_def] at h
              obtain ⟨x, _, hx⟩ := Option.bind_eq_some_iff.mp h
              cases hx
            · cases hq : Expr.evalList X es t <;> simp
          | cons w ws =>
            have := ih ws
            constructor
            · intro h
              simp only [Option.pure_def] at h
              obtain ⟨x, hx1, hx⟩ := Option.bind_eq_some_iff.mp h
              cases hx
              rw [this.mp hx1]
              rfl
            · cases hq : Expr.evalList X es t with
              | ok us =>
                simp only [Outcome.ok.injEq, List.map_cons, List.cons.injEq, Tup.val.injEq]
                rintro ⟨rfl, rfl⟩
                rw [this.mpr hq]
                rfl
              | undef => simp
              | panic => simp
    · simp only [Expr.eval, Option.bind_eq_bind, Option.bind_some, Outcome.bind]
      cases vs with
      | nil =>
        constructor
        · intro h
          simp only [Option.pure_def] at h
          obtain ⟨x, _, hx⟩ := Option.bind_eq_some_iff.mp h
          cases hx
        · cases hq : Expr.evalList X es t <;> simp
      | cons w ws =>
        have := ih ws
        constructor
        · intro h
          simp only [Option.pure_def] at h
          obtain ⟨x, hx1, hx⟩ := Option.bind_eq_some_iff.mp h
          cases hx
          rw [this.mp hx1]
          rfl
        · cases hq : Expr.evalList X es t with
          | ok us =>
            simp only [Outcome.ok.injEq, List.map_cons, List.cons.injEq, Tup.val.injEq]
            rintro ⟨rfl, rfl⟩
            rw [this.mpr hq]
            rfl
          | undef => simp
          | panic => simp

omit [LinearOrder (Val F)] in
theorem Positive.stratified {own : List String} : ∀ {d : Ram.Dataflow F}, Positive d → Stratified own d := by
  intro d
  induction d with
  | leaf l => cases l <;> simp [Positive, Stratified]
  | un o d ih => exact ih
  | bin o d1 d2 ih1 ih2 => cases o <;> simp only [Positive, Stratified] <;> first | exact fun h => h | exact fun h => ⟨ih1 h.1, ih2 h.2⟩ | exact fun h => h.elim
  | project d e ih => exact ih

/-! ## Conditions carry over -/

section
variable {c : Prov T W} {R : Runtime F T} {inp : Db F T} {D own : List String}

theorem build_un {o : Un F} {d : Ram.Dataflow F} {d'} (h : build c R inp D (.un o d) = some d') : ∃ e, build c R inp D d = some e := by
  cases hb : build c R inp D d with
  | some e => exact ⟨e, rfl⟩
  | none => cases o <;> simp [build, hb] at h

theorem build_static (hD : ∀ r ∈ D, r ∈ own) : ∀ {d : Ram.Dataflow F} {d'}, Static own d → build c R inp D d = some d' → d'.static := by
  intro d
  induction d with
  | leaf l =>
    intro d' hs h
    cases l <;> simp only [Static] at hs
    rename_i r
    simp only [build] at h
    split at h
    · cases h; trivial
    · split at h
      · rename_i hr; exact absurd (hD r hr) hs
      · cases h
  | un o d ih =>
    intro d' hs h
    obtain ⟨e, he⟩ := build_un h
    cases o <;> simp only [Static] at hs
    all_goals
      simp only [build, he, Option.map_some, Option.some.injEq] at h
      subst h
      have hh := ih hs he; exact hh
  | bin o d1 d2 _ _ => intro d' hs; cases o <;> simp [Static] at hs
  | project d e ih =>
    intro d' hs h
    simp only [build] at h
    obtain ⟨x, hx, rfl⟩ := Option.map_eq_some_iff.mp h
    have hh := ih hs hx; exact hh

theorem build_positive : ∀ {d : Ram.Dataflow F} {d'}, Positive d → build c R inp D d = some d' → d'.positive := by
  intro d
  induction d with
  | leaf l =>
    intro d' hs h
    cases l <;> simp only [Positive] at hs <;> simp only [build] at h
    · cases h; trivial
    · cases h; trivial
    · split at h
      · cases h; trivial
      · split at h
        · cases h; trivial
        · cases h
    · obtain ⟨x, hx, rfl⟩ := Option.map_eq_some_iff.mp h
      trivial
  | un o d ih =>
    intro d' hs h
    obtain ⟨e, he⟩ := build_un h
    have := ih hs he
    cases o <;> simp only [build, he, Option.map_some, Option.bind_some, Option.some.injEq] at h
    case joinIndexedVec r =>
      split at h
      · cases h; exact this
      · cases h
    case foreignConstraint n es =>
      obtain ⟨f, _, hf⟩ := Option.bind_eq_some_iff.mp h
      cases hf; exact this
    case foreignJoin n es =>
      obtain ⟨f, _, hf⟩ := Option.bind_eq_some_iff.mp h
      cases hf; exact this
    all_goals subst h; exact this
  | bin o d1 d2 ih1 ih2 =>
    intro d' hs h
    simp only [build] at h
    obtain ⟨e1, h1, h⟩ := Option.bind_eq_some_iff.mp h
    obtain ⟨e2, h2, rfl⟩ := Option.map_eq_some_iff.mp h
    cases o <;> simp only [Positive] at hs
    all_goals exact ⟨ih1 hs.1 h1, ih2 hs.2 h2⟩
  | project d e ih =>
    intro d' hs h
    simp only [build] at h
    obtain ⟨x, hx, rfl⟩ := Option.map_eq_some_iff.mp h
    have hh := ih hs hx; exact hh

theorem build_stratified (hD : ∀ r ∈ D, r ∈ own) : ∀ {d : Ram.Dataflow F} {d'}, Stratified own d → build c R inp D d = some d' → d'.stratified := by
  intro d
  induction d with
  | leaf l =>
    intro d' hs h
    cases l <;> simp only [build] at h
    · cases h; trivial
    · cases h; trivial
    · split at h
      · cases h; trivial
      · split at h
        · cases h; trivial
        · cases h
    · obtain ⟨x, hx, h⟩ := Option.bind_eq_some_iff.mp h
      obtain ⟨y, hy, rfl⟩ := Option.map_eq_some_iff.mp h
      trivial
    · obtain ⟨x, hx, rfl⟩ := Option.map_eq_some_iff.mp h
      trivial
  | un o d ih =>
    intro d' hs h
    obtain ⟨e, he⟩ := build_un h
    have := ih hs he
    cases o <;> simp only [build, he, Option.map_some, Option.bind_some, Option.some.injEq] at h
    case joinIndexedVec r =>
      split at h
      · cases h; exact this
      · cases h
    case foreignConstraint n es =>
      obtain ⟨f, _, hf⟩ := Option.bind_eq_some_iff.mp h
      cases hf; exact this
    case foreignJoin n es =>
      obtain ⟨f, _, hf⟩ := Option.bind_eq_some_iff.mp h
      cases hf; exact this
    all_goals subst h; exact this
  | bin o d1 d2 ih1 ih2 =>
    intro d' hs h
    simp only [build] at h
    obtain ⟨e1, h1, h⟩ := Option.bind_eq_some_iff.mp h
    obtain ⟨e2, h2, rfl⟩ := Option.map_eq_some_iff.mp h
    cases o <;> simp only [Stratified] at hs
    · exact ⟨ih1 hs.1 h1, ih2 hs.2 h2⟩
    · exact ⟨build_positive hs.1 h1, build_positive hs.2 h2⟩
    · exact ⟨build_positive hs.1 h1, build_positive hs.2 h2⟩
    · exact ⟨build_positive hs.1 h1, build_positive hs.2 h2⟩
    · exact ⟨ih1 hs.1 h1, build_static hD hs.2 h2⟩
    · exact ⟨ih1 hs.1 h1, build_static hD hs.2 h2⟩
  | project d e ih =>
    intro d' hs h
    simp only [build] at h
    obtain ⟨x, hx, rfl⟩ := Option.map_eq_some_iff.mp h
    have hh := ih hs hx; exact hh

omit [LinearOrder (Val F)] in
theorem evalTo_some {X : Ext F} {e : Expr F} {t u : Tup (Val F)} : evalTo X e t = some u ↔ e.eval X t = .ok u := by
  unfold evalTo
  cases e.eval X t <;> simp

omit [LinearOrder (Val F)] in
theorem holds_iff {X : Ext F} {e : Expr F} {t : Tup (Val F)} : holds X e t = true ↔ e.eval X t = .ok (.val (.bool true)) := by
  unfold holds
  split
  · rename_i h; simp [h]
  · rename_i h; simp only [Bool.false_eq_true, false_iff]; exact h

theorem build_outSorted : ∀ {d : Ram.Dataflow F} {d'}, OutSorted R.X d → build c R inp D d = some d' → d'.outSorted := by
  intro d
  induction d with
  | leaf l =>
    intro d' hs h
    cases l <;> simp only [OutSorted] at hs <;> simp only [build] at h
    · cases h; trivial
    · cases h; exact hs
    · split at h
      · cases h; trivial
      · split at h
        · cases h; trivial
        · cases h
  | un o d ih =>
    intro d' hs h
    obtain ⟨e, he⟩ := build_un h
    cases o <;> simp only [OutSorted] at hs
    all_goals
      simp only [build, he, Option.map_some, Option.some.injEq] at h
      subst h
      have hh := ih hs he; exact hh
  | bin o d1 d2 ih1 ih2 =>
    intro d' hs h
    simp only [build] at h
    obtain ⟨e1, h1, h⟩ := Option.bind_eq_some_iff.mp h
    obtain ⟨e2, h2, rfl⟩ := Option.map_eq_some_iff.mp h
    cases o <;> simp only [OutSorted] at hs
    · exact ⟨ih1 hs.1 h1, ih2 hs.2 h2⟩
    · exact ⟨ih1 hs.1 h1, ih2 hs.2 h2⟩
    · have hh := ih1 hs h1; exact hh
    · have hh := ih1 hs h1; exact hh
  | project d e ih =>
    intro d' hs h
    simp only [build] at h
    obtain ⟨x, hx, rfl⟩ := Option.map_eq_some_iff.mp h
    exact ⟨ih hs.1 hx, fun x y x' y' hxy h1 h2 => hs.2 x y x' y' hxy (evalTo_some.mp h1) (evalTo_some.mp h2)⟩

theorem build_outSortedLe : ∀ {d : Ram.Dataflow F} {d'}, OutSortedLe R.X d → build c R inp D d = some d' → d'.outSortedLe := by
  intro d
  induction d with
  | leaf l =>
    intro d' hs h
    cases l <;> simp only [OutSortedLe] at hs <;> simp only [build] at h
    · cases h; trivial
    · cases h; exact hs
    · split at h
      · cases h; trivial
      · split at h
        · cases h; trivial
        · cases h
  | un o d ih =>
    intro d' hs h
    obtain ⟨e, he⟩ := build_un h
    cases o <;> simp only [OutSortedLe] at hs
    case sorted =>
      simp only [build, he, Option.map_some, Option.some.injEq] at h
      subst h
      trivial
    all_goals
      simp only [build, he, Option.map_some, Option.some.injEq] at h
      subst h
      have hh := ih hs he; exact hh
  | bin o d1 d2 ih1 ih2 =>
    intro d' hs h
    simp only [build] at h
    obtain ⟨e1, h1, h⟩ := Option.bind_eq_some_iff.mp h
    obtain ⟨e2, h2, rfl⟩ := Option.map_eq_some_iff.mp h
    cases o <;> simp only [OutSortedLe] at hs
    · exact ⟨ih1 hs.1 h1, ih2 hs.2 h2⟩
    · exact ⟨build_outSorted hs.1 h1, build_outSorted hs.2 h2⟩
    · have hh := ih1 hs h1; exact hh
    · have hh := build_outSorted hs h1; exact hh
  | project d e ih =>
    intro d' hs h
    simp only [build] at h
    obtain ⟨x, hx, rfl⟩ := Option.map_eq_some_iff.mp h
    exact ⟨ih hs.1 hx, fun x y x' y' hxy h1 h2 => hs.2 x y x' y' hxy (evalTo_some.mp h1) (evalTo_some.mp h2)⟩

theorem build_wellSorted : ∀ {d : Ram.Dataflow F} {d'}, WellSorted R.X d → build c R inp D d = some d' → d'.wellSorted := by
  intro d
  induction d with
  | leaf l =>
    intro d' hs h
    cases l <;> simp only [build] at h
    · cases h; trivial
    · cases h; trivial
    · split at h
      · cases h; trivial
      · split at h
        · cases h; trivial
        · cases h
    · obtain ⟨x, hx, h⟩ := Option.bind_eq_some_iff.mp h
      obtain ⟨y, hy, rfl⟩ := Option.map_eq_some_iff.mp h
      trivial
    · obtain ⟨x, hx, rfl⟩ := Option.map_eq_some_iff.mp h
      trivial
  | un o d ih =>
    intro d' hs h
    obtain ⟨e, he⟩ := build_un h
    cases o <;> simp only [build, he, Option.map_some, Option.bind_some, Option.some.injEq] at h <;> simp only [WellSorted] at hs
    case joinIndexedVec r =>
      split at h
      · cases h; have hh := ih hs he; exact hh
      · cases h
    case foreignConstraint n es =>
      obtain ⟨f, _, hf⟩ := Option.bind_eq_some_iff.mp h
      cases hf; have hh := ih hs he; exact hh
    case foreignJoin n es =>
      obtain ⟨f, _, hf⟩ := Option.bind_eq_some_iff.mp h
      cases hf; have hh := ih hs he; exact hh
    case find k => subst h; exact ⟨ih hs.1 he, build_outSortedLe hs.2 he⟩
    all_goals subst h; have hh := ih hs he; exact hh
  | bin o d1 d2 ih1 ih2 =>
    intro d' hs h
    simp only [build] at h
    obtain ⟨e1, h1, h⟩ := Option.bind_eq_some_iff.mp h
    obtain ⟨e2, h2, rfl⟩ := Option.map_eq_some_iff.mp h
    cases o <;> simp only [WellSorted] at hs
    · exact ⟨ih1 hs.1 h1, ih2 hs.2 h2⟩
    · exact ⟨ih1 hs.1 h1, ih2 hs.2.1 h2, build_outSortedLe hs.2.2.1 h1, build_outSortedLe hs.2.2.2 h2⟩
    · exact ⟨ih1 hs.1 h1, ih2 hs.2.1 h2, build_outSorted hs.2.2.1 h1, build_outSorted hs.2.2.2 h2⟩
    · exact ⟨ih1 hs.1 h1, ih2 hs.2 h2⟩
    · exact ⟨ih1 hs.1 h1, ih2 hs.2.1 h2, build_outSortedLe hs.2.2.1 h1, build_outSortedLe hs.2.2.2 h2⟩
    · exact ⟨ih1 hs.1 h1, ih2 hs.2.1 h2, build_outSorted hs.2.2.1 h1, build_outSortedLe hs.2.2.2 h2⟩
  | project d e ih =>
    intro d' hs h
    simp only [build] at h
    obtain ⟨x, hx, rfl⟩ := Option.map_eq_some_iff.mp h
    have hh := ih hs hx; exact hh

end

end Scallop.Exec
