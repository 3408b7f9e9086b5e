import Verif.Spec.Declare
import Verif.Proof.Entity

/-!
# Lemmas about declarations
-/

namespace Scallop.Declare

open Scallop.Ty (VTy)

/-! ## Constructors -/

theorem Pre.variants_grow (n : String) (vs : List (String × List Ty)) (q : Pre × List String)
    (h : (vs.foldl (Pre.variant n) q).1.errs = []) : q.1.errs = [] := by
  induction vs generalizing q with
  | nil => exact h
  | cons v vs ih =>
    have := ih _ h
    simp only [Pre.variant, List.append_eq_nil_iff] at this
    exact this.1.1

theorem Pre.variants_eq (n : String) (vs : List (String × List Ty)) (p : Pre) (seen : List String)
    (hs : ∀ c ∈ seen, c ∈ p.vars.map Info.name) (he : p.errs = []) (hd : (p.vars.map Info.name).Nodup) :
    ((vs.foldl (Pre.variant n) (p, seen)).1.errs = [] ↔ (p.vars.map Info.name ++ vs.map Prod.fst).Nodup) ∧
    ((p.vars.map Info.name ++ vs.map Prod.fst).Nodup →
      (vs.foldl (Pre.variant n) (p, seen)).1.vars = p.vars ++ vs.map (fun v => ⟨n, v.1, v.2⟩)) := by
  induction vs generalizing p seen with
  | nil => simp [he, hd]
  | cons v vs ih =>
    by_cases hv : v.1 ∈ p.vars.map Info.name
    · have hnd : ¬ (p.vars.map Info.name ++ (v :: vs).map Prod.fst).Nodup := by
        intro h
        rw [List.nodup_append] at h
        exact h.2.2 _ hv _ (by simp) rfl
      refine ⟨⟨fun h => ?_, fun h => absurd h hnd⟩, fun h => absurd h hnd⟩
      have := Pre.variants_grow n vs _ h
      simp only [Pre.variant, List.append_eq_nil_iff] at this
      have ha : p.vars.any (fun i => i.name == v.1) = true := by
        obtain ⟨i, hi, he⟩ := List.mem_map.mp hv
        exact List.any_eq_true.mpr ⟨i, hi, by simp [he]⟩
      simp [ha] at this
    · have hseen : seen.contains v.1 = false := by
        by_contra hc
        exact hv (hs _ (by simpa using hc))
      have ha : p.vars.any (fun i => i.name == v.1) = false := by
        by_contra hc
        obtain ⟨i, hi, he⟩ := List.any_eq_true.mp (Bool.not_eq_false _ ▸ hc : _ = true)
        exact hv (List.mem_map.mpr ⟨i, hi, by simpa using he⟩)
      have hf : p.vars.filter (fun i => !(i.name == v.1)) = p.vars := by
        apply List.filter_eq_self.mpr
        intro i hi
        simp only [Bool.not_eq_true', beq_eq_false_iff_ne, ne_eq]
        exact fun he => hv (List.mem_map.mpr ⟨i, hi, he⟩)
      have hstep : Pre.variant n (p, seen) v = (⟨[], p.vars ++ [⟨n, v.1, v.2⟩]⟩, seen ++ [v.1]) := by
        simp only [Pre.variant, hseen, ha, hf, he]
        rfl
      rw [List.foldl_cons, hstep]
      have := ih ⟨[], p.vars ++ [⟨n, v.1, v.2⟩]⟩ (seen ++ [v.1])
        (by
          intro c hc
          rcases List.mem_append.mp hc with h | h
          · exact List.mem_map.mpr (by obtain ⟨i, hi, he⟩ := List.mem_map.mp (hs c h); exact ⟨i, by simp [hi], he⟩)
          · simp only [List.mem_singleton] at h
            simp [h])
        rfl (by
          simp only [List.map_append, List.map_cons, List.map_nil]
          rw [List.nodup_append]
          refine ⟨hd, by simp, ?_⟩
          intro a ha b hb
          simp only [List.mem_singleton] at hb
          subst hb
          exact fun h => hv (h ▸ ha))
      simpa [List.append_assoc] using this

theorem Pre.visit_grow (ds : List Decl) (p : Pre) (h : (ds.foldl Pre.visit p).errs = []) : p.errs = [] := by
  induction ds generalizing p with
  | nil => exact h
  | cons d ds ih =>
    have := ih _ h
    cases d <;> first | exact this | exact Pre.variants_grow _ _ _ this

theorem Pre.visit_eq (ds : List Decl) (p : Pre) (he : p.errs = []) (hd : (p.vars.map Info.name).Nodup) :
    ((ds.foldl Pre.visit p).errs = [] ↔ ((p.vars ++ constructors ds).map Info.name).Nodup) ∧
    (((p.vars ++ constructors ds).map Info.name).Nodup → (ds.foldl Pre.visit p).vars = p.vars ++ constructors ds) := by
  induction ds generalizing p with
  | nil => simp [he, hd, constructors]
  | cons d ds ih =>
    cases d with
    | synonym n ty => exact ih p he hd
    | enum n => exact ih p he hd
    | relation r args => exact ih p he hd
    | adt n vs =>
      have hm : (vs.map (fun v => (⟨n, v.1, v.2⟩ : Info))).map Info.name = vs.map Prod.fst := by simp
      obtain ⟨h1, h2⟩ := Pre.variants_eq n vs p [] (by simp) he hd
      have hsub : ((p.vars ++ constructors (.adt n vs :: ds)).map Info.name).Nodup → (p.vars.map Info.name ++ vs.map Prod.fst).Nodup := by
        intro h
        simp only [constructors, List.map_append, hm, ← List.append_assoc] at h
        exact (List.nodup_append.mp h).1
      by_cases hn : (p.vars.map Info.name ++ vs.map Prod.fst).Nodup
      · have hv := h2 hn
        have := ih (Pre.visit p (.adt n vs)) (h1.mpr hn) (by
          show ((vs.foldl (Pre.variant n) (p, [])).1.vars.map Info.name).Nodup
          rw [hv, List.map_append, hm]
          exact hn)
        have hv' : (Pre.visit p (.adt n vs)).vars = p.vars ++ vs.map (fun v => ⟨n, v.1, v.2⟩) := hv
        rw [hv'] at this
        simpa [constructors, List.append_assoc] using this
      · refine ⟨⟨fun h => ?_, fun h => absurd (hsub h) hn⟩, fun h => absurd (hsub h) hn⟩
        exact absurd (h1.mp (Pre.visit_grow ds _ h)) hn

/-! ## Types and relations -/

theorem find_ok {types : String → Option VTy} {ty : Ty} {t : VTy} : find types ty = .ok t ↔ valueOf types ty = some t := by
  cases ty with
  | base b => simp [find, valueOf]
  | named n =>
    simp only [find, valueOf]
    cases types n <;> simp

theorem find_known (types : String → Option VTy) (ty : Ty) : (∃ t, find types ty = .ok t) ↔ Known (fun n => (types n).isSome) ty := by
  cases ty with
  | base b => simp [find, Known]
  | named n =>
    simp only [find, Known]
    cases types n <;> simp

theorem findAll_ok {types : String → Option VTy} {tys : List Ty} {ts : List VTy} (h : findAll types tys = .ok ts) :
    List.Forall₂ (fun ty t => valueOf types ty = some t) tys ts := by
  induction tys generalizing ts with
  | nil => simp only [findAll, Except.ok.injEq] at h; subst h; exact .nil
  | cons ty tys ih =>
    rw [findAll] at h
    cases h1 : find types ty with
    | error e => simp [h1] at h
    | ok v =>
      cases h2 : findAll types tys with
      | error e => simp [h1, h2] at h
      | ok vs =>
        simp only [h1, h2, Except.ok.injEq] at h
        subst h
        exact .cons (find_ok.mp h1) (ih h2)

theorem findAll_known (types : String → Option VTy) (tys : List Ty) :
    (∃ ts, findAll types tys = .ok ts) ↔ ∀ ty ∈ tys, Known (fun n => (types n).isSome) ty := by
  induction tys with
  | nil => simp [findAll]
  | cons ty tys ih =>
    rw [List.forall_mem_cons, ← ih, ← find_known, findAll]
    cases h1 : find types ty with
    | error e => simp
    | ok v =>
      cases h2 : findAll types tys with
      | error e => simp
      | ok vs => simp

theorem Known.congr {T T' : String → Prop} (h : ∀ n, T n ↔ T' n) (ty : Ty) : Known T ty ↔ Known T' ty := by
  cases ty with
  | base b => exact Iff.rfl
  | named n => exact h n

theorem Orderly.congr {T T' R R' : String → Prop} (hT : ∀ n, T n ↔ T' n) (hR : ∀ n, R n ↔ R' n) (ds : List Decl) :
    Orderly T R ds ↔ Orderly T' R' ds := by
  have e1 : T = T' := funext fun n => propext (hT n)
  have e2 : R = R' := funext fun n => propext (hR n)
  rw [e1, e2]

/-- Without data types. -/
def Decl.Plain : Decl → Prop
  | .adt _ _ => False
  | _ => True

theorem transformed_plain (d : Decl) : (transformed d).Plain := by cases d <;> trivial

theorem process_orderly (ds : List Decl) (hp : ∀ d ∈ ds, d.Plain) (s : State) :
    (s.process ds).2 = [] ↔ Orderly (fun n => (s.types n).isSome) (fun r => s.declared r = true) ds := by
  induction ds generalizing s with
  | nil => simp [State.process, Orderly]
  | cons d ds ih =>
    have ih := ih (fun d hd => hp d (List.mem_cons_of_mem _ hd))
    rw [State.process]
    simp only [List.append_eq_nil_iff, ih]
    have addT (n : String) (ty : Ty) : ((s.addType n ty).2 = [] ∧
        Orderly (fun m => ((s.addType n ty).1.types m).isSome) (fun r => (s.addType n ty).1.declared r = true) ds) ↔
        ¬ (s.types n).isSome ∧ Known (fun m => (s.types m).isSome) ty ∧ Orderly (fun x => (s.types x).isSome ∨ x = n) (fun r => s.declared r = true) ds := by
      rw [← find_known, State.addType]
      by_cases h : (s.types n).isSome
      · simp [h]
      · simp only [h, if_false, Bool.false_eq_true]
        cases hf : find s.types ty with
        | error e => simp
        | ok t =>
          simp only [true_and, Except.ok.injEq, exists_eq', not_false_eq_true]
          apply Orderly.congr _ (fun _ => Iff.rfl)
          intro m
          by_cases hm : m = n <;> simp [hm]
    cases d with
    | synonym n ty => exact addT n ty
    | enum n =>
      have := addT n (.base (.int .usize))
      simpa [State.visit, Orderly, Known] using this
    | adt n vs => exact (hp (.adt n vs) List.mem_cons_self).elim
    | relation r args =>
      rw [Orderly, State.visit, ← findAll_known, State.addRelation]
      by_cases h : s.declared r = true
      · simp [h]
      · simp only [h, if_false, Bool.false_eq_true]
        cases hf : findAll s.types args with
        | error e => simp
        | ok t =>
          simp only [true_and, Except.ok.injEq, exists_eq', not_false_eq_true]
          apply Orderly.congr (fun _ => Iff.rfl)
          intro m
          by_cases hm : m = r <;> simp [hm]

theorem orderly_transformed (T R : String → Prop) (ds : List Decl) : Orderly T R (ds.map transformed) ↔ Orderly T R ds := by
  induction ds generalizing T R with
  | nil => exact Iff.rfl
  | cons d ds ih => cases d <;> simp [transformed, Orderly, ih, Known]

theorem orderly_append (T R : String → Prop) (a b : List Decl) :
    Orderly T R (a ++ b) ↔ Orderly T R a ∧
      Orderly (fun n => T n ∨ ∃ d ∈ a, d.typeName = some n) (fun r => R r ∨ ∃ args, Decl.relation r args ∈ a) b := by
  induction a generalizing T R with
  | nil => simp [Orderly]
  | cons d a ih =>
    have key : ∀ (T' R' : String → Prop), (∀ n, (T' n ∨ ∃ d ∈ a, d.typeName = some n) ↔ (T n ∨ ∃ e ∈ d :: a, e.typeName = some n)) →
        (∀ r, (R' r ∨ ∃ args, Decl.relation r args ∈ a) ↔ (R r ∨ ∃ args, Decl.relation r args ∈ d :: a)) →
        (Orderly T' R' (a ++ b) ↔ Orderly T' R' a ∧
          Orderly (fun n => T n ∨ ∃ e ∈ d :: a, e.typeName = some n) (fun r => R r ∨ ∃ args, Decl.relation r args ∈ d :: a) b) := by
      intro T' R' h1 h2
      rw [ih T' R', Orderly.congr h1 h2]
    cases d with
    | synonym n ty =>
      rw [List.cons_append, Orderly, Orderly, key _ _ (by intro m; simp [Decl.typeName, eq_comm, or_assoc]) (by intro m; simp)]
      tauto
    | enum n =>
      rw [List.cons_append, Orderly, Orderly, key _ _ (by intro m; simp [Decl.typeName, eq_comm, or_assoc]) (by intro m; simp)]
      tauto
    | adt n vs =>
      rw [List.cons_append, Orderly, Orderly, key _ _ (by intro m; simp [Decl.typeName, eq_comm, or_assoc]) (by intro m; simp)]
      tauto
    | relation r args =>
      rw [List.cons_append, Orderly, Orderly, key _ _ (by intro m; simp [Decl.typeName]) (by
        intro m
        simp only [List.mem_cons, Decl.relation.injEq]
        constructor
        · rintro ((h | rfl) | ⟨as, h⟩)
          · exact .inl h
          · exact .inr ⟨args, .inl ⟨rfl, rfl⟩⟩
          · exact .inr ⟨as, .inr h⟩
        · rintro (h | ⟨as, ⟨rfl, rfl⟩ | h⟩)
          · exact .inl (.inl h)
          · exact .inl (.inr rfl)
          · exact .inr ⟨as, h⟩)]
      tauto

theorem orderly_infos (T R : String → Prop) (is : List Info) :
    Orderly T R (is.map Info.decl) ↔ (is.map Info.name).Nodup ∧ ∀ i ∈ is, ¬ R (Ent.adtName i.name) ∧ T i.type ∧ ∀ ty ∈ i.args, Known T ty := by
  induction is generalizing R with
  | nil => simp [Orderly]
  | cons i is ih =>
    rw [List.map_cons, Info.decl, Orderly, ih, List.map_cons, List.nodup_cons, List.forall_mem_cons, List.forall_mem_cons]
    simp only [Known, not_or]
    constructor
    · rintro ⟨h1, ⟨h2, h3⟩, h4, h5⟩
      refine ⟨⟨?_, h4⟩, ⟨h1, h2, h3⟩, fun j hj => ⟨(h5 j hj).1.1, (h5 j hj).2⟩⟩
      intro hm
      obtain ⟨j, hj, he⟩ := List.mem_map.mp hm
      exact (h5 j hj).1.2 (by rw [he])
    · rintro ⟨⟨h1, h2⟩, ⟨h3, h4, h5⟩, h6⟩
      refine ⟨h3, ⟨h4, h5⟩, h2, fun j hj => ⟨⟨(h6 j hj).1, fun he => ?_⟩, (h6 j hj).2⟩⟩
      exact h1 (List.mem_map.mpr ⟨j, hj, Ent.adtName_inj he⟩)

theorem constructors_type {ds : List Decl} {i : Info} (h : i ∈ constructors ds) : ∃ d ∈ ds, d.typeName = some i.type := by
  induction ds with
  | nil => simp [constructors] at h
  | cons d ds ih =>
    have hc : i ∈ constructors ds → ∃ e ∈ d :: ds, e.typeName = some i.type := by
      intro h
      obtain ⟨e, he, hn⟩ := ih h
      exact ⟨e, by simp [he], hn⟩
    cases d with
    | synonym n ty => exact hc h
    | enum n => exact hc h
    | relation r args => exact hc h
    | adt n vs =>
      rw [constructors, List.mem_append] at h
      rcases h with h | h
      · obtain ⟨v, _, rfl⟩ := List.mem_map.mp h
        exact ⟨_, List.mem_cons_self, rfl⟩
      · exact hc h

theorem typeName_transformed (d : Decl) : (transformed d).typeName = d.typeName := by cases d <;> rfl

theorem relation_transformed (ds : List Decl) (r : String) (args : List Ty) : Decl.relation r args ∈ ds.map transformed ↔ Decl.relation r args ∈ ds := by
  rw [List.mem_map]
  constructor
  · rintro ⟨d, hd, he⟩
    cases d <;> simp only [transformed, reduceCtorEq] at he
    rw [← he]; exact hd
  · intro h
    exact ⟨_, h, rfl⟩

/-- What is compiled if there is no error. -/
def source (gen : List Info → List Info) (ds : List Decl) : List Decl := ds.map transformed ++ (gen (constructors ds)).map Info.decl

theorem source_plain (gen : List Info → List Info) (ds : List Decl) : ∀ d ∈ source gen ds, d.Plain := by
  intro d hd
  rcases List.mem_append.mp hd with h | h
  · obtain ⟨e, _, rfl⟩ := List.mem_map.mp h
    exact transformed_plain e
  · obtain ⟨e, _, rfl⟩ := List.mem_map.mp h
    trivial

theorem compile_eq (gen : List Info → List Info) (s : State) (ds : List Decl) (h : ((constructors ds).map Info.name).Nodup) :
    compile gen s ds = if (s.process (source gen ds)).2 ≠ [] then .error (s.process (source gen ds)).2 else .ok (s.process (source gen ds)).1 := by
  obtain ⟨h1, h2⟩ := Pre.visit_eq ds ⟨[], []⟩ rfl (by simp)
  have e1 := h1.mpr (by simpa using h)
  have e2 := h2 (by simpa using h)
  simp only [List.nil_append] at e2
  simp only [compile, e1, e2, ne_eq, not_true_eq_false, if_false, source]
  rfl

theorem source_right (gen : List Info → List Info) (hgen : ∀ l, (gen l).Perm l) (s : State) (ds : List Decl) :
    (((constructors ds).map Info.name).Nodup ∧ (s.process (source gen ds)).2 = []) ↔
    Right (fun n => (s.types n).isSome) (fun r => s.declared r = true) ds := by
  rw [process_orderly _ (source_plain gen ds), source, orderly_append, orderly_transformed, orderly_infos,
    ((hgen (constructors ds)).map Info.name).nodup_iff, Right]
  have hT : (fun n => ((s.types n).isSome = true) ∨ ∃ d ∈ ds.map transformed, d.typeName = some n) =
      (fun n => ((s.types n).isSome = true) ∨ ∃ d ∈ ds, d.typeName = some n) := by
    funext n
    simp [typeName_transformed]
  rw [hT]
  simp only [(hgen (constructors ds)).mem_iff, relation_transformed, not_or, not_exists]
  constructor
  · rintro ⟨h1, h2, -, h4⟩
    exact ⟨h2, h1, fun i hi => ⟨(h4 i hi).1.1, (h4 i hi).1.2, (h4 i hi).2.2⟩⟩
  · rintro ⟨h1, h2, h3⟩
    exact ⟨h2, h1, h2, fun i hi => ⟨⟨(h3 i hi).1, (h3 i hi).2.1⟩, .inr (by
      obtain ⟨d, hd, hn⟩ := constructors_type hi
      exact ⟨_, List.mem_map_of_mem hd, (typeName_transformed d).trans hn⟩), (h3 i hi).2.2⟩⟩

/-! ## What declarations mean -/

/-- Nothing that is known changes. -/
def Keeps (s s' : State) : Prop :=
  (∀ n t, s.types n = some t → s'.types n = some t) ∧ (∀ r, s.declared r = true → s'.declared r = true ∧ s'.relTypes r = s.relTypes r)

theorem Keeps.rfl' (s : State) : Keeps s s := ⟨fun _ _ h => h, fun _ h => ⟨h, rfl⟩⟩

theorem Keeps.trans {a b c : State} (h : Keeps a b) (h' : Keeps b c) : Keeps a c :=
  ⟨fun n t e => h'.1 n t (h.1 n t e), fun r e => ⟨(h'.2 r (h.2 r e).1).1, ((h'.2 r (h.2 r e).1).2).trans (h.2 r e).2⟩⟩

theorem addType_keeps (s : State) (n : String) (ty : Ty) : Keeps s (s.addType n ty).1 := by
  rw [State.addType]
  by_cases h : (s.types n).isSome
  · simp only [h, if_true]; exact Keeps.rfl' s
  · simp only [h, if_false, Bool.false_eq_true]
    cases find s.types ty with
    | error e => exact Keeps.rfl' s
    | ok t =>
      refine ⟨fun m u e => ?_, fun r e => ⟨e, rfl⟩⟩
      have : m ≠ n := by rintro rfl; simp [e] at h
      simp [this, e]

theorem visit_keeps (s : State) (d : Decl) : Keeps s (s.visit d).1 := by
  cases d with
  | synonym n ty => exact addType_keeps s n ty
  | enum n => exact addType_keeps s n _
  | adt n vs => exact Keeps.rfl' s
  | relation r args =>
    rw [State.visit, State.addRelation]
    by_cases h : s.declared r = true
    · simp only [h, if_true]; exact Keeps.rfl' s
    · simp only [h, if_false, Bool.false_eq_true]
      cases findAll s.types args with
      | error e => exact ⟨fun _ _ e => e, fun m e => ⟨by by_cases hm : m = r <;> simp [hm, e], rfl⟩⟩
      | ok t =>
        refine ⟨fun _ _ e => e, fun m e => ?_⟩
        have : m ≠ r := by rintro rfl; exact h e
        simp [this, e]

theorem process_keeps (s : State) (ds : List Decl) : Keeps s (s.process ds).1 := by
  induction ds generalizing s with
  | nil => exact Keeps.rfl' s
  | cons d ds ih => exact (visit_keeps s d).trans (ih _)

theorem valueOf_keeps {s s' : State} (h : Keeps s s') {ty : Ty} {t : VTy} (e : valueOf s.types ty = some t) : valueOf s'.types ty = some t := by
  cases ty with
  | base b => exact e
  | named n => exact h.1 n t e

theorem valuesOf_keeps {s s' : State} (h : Keeps s s') {tys : List Ty} {ts : List VTy} (e : List.Forall₂ (fun ty t => valueOf s.types ty = some t) tys ts) :
    List.Forall₂ (fun ty t => valueOf s'.types ty = some t) tys ts := e.imp fun _ _ => valueOf_keeps h

theorem addType_ok (s : State) (n : String) (ty : Ty) (h : (s.addType n ty).2 = []) :
    ∃ t, (s.addType n ty).1.types n = some t ∧ valueOf s.types ty = some t := by
  rw [State.addType] at h ⊢
  by_cases hn : (s.types n).isSome
  · simp [hn] at h
  · simp only [hn, if_false, Bool.false_eq_true] at h ⊢
    cases hf : find s.types ty with
    | error e => simp [hf] at h
    | ok t => exact ⟨t, by simp, find_ok.mp hf⟩

theorem visit_holds (s : State) (d : Decl) (hp : d.Plain) (h : (s.visit d).2 = []) (s' : State) (hk : Keeps (s.visit d).1 s') :
    Holds s'.types s'.relTypes d := by
  cases d with
  | synonym n ty =>
    obtain ⟨t, h1, h2⟩ := addType_ok s n ty h
    have e1 := hk.1 n t h1
    have e2 := valueOf_keeps ((visit_keeps s (.synonym n ty)).trans hk) h2
    exact ⟨by simp [e1], e1.trans e2.symm⟩
  | enum n =>
    obtain ⟨t, h1, h2⟩ := addType_ok s n _ h
    cases h2
    exact hk.1 n _ h1
  | adt n vs => exact hp.elim
  | relation r args =>
    rw [State.visit, State.addRelation] at h hk
    by_cases hd : s.declared r = true
    · simp [hd] at h
    · simp only [hd, if_false, Bool.false_eq_true] at h hk
      cases hf : findAll s.types args with
      | error e => simp [hf] at h
      | ok ts =>
        simp only [hf] at hk
        refine ⟨ts, valuesOf_keeps (s := s) (s' := s') ⟨fun n t e => hk.1 n t e, fun m e => ?_⟩ (findAll_ok hf), ?_⟩
        · have hm : m ≠ r := by rintro rfl; exact hd e
          have := hk.2 m (by simp [e])
          simpa [hm] using this
        · have := (hk.2 r (by simp)).2
          simpa using this

theorem process_holds (ds : List Decl) (hp : ∀ d ∈ ds, d.Plain) (s : State) (h : (s.process ds).2 = []) :
    ∀ d ∈ ds, Holds (s.process ds).1.types (s.process ds).1.relTypes d := by
  induction ds generalizing s with
  | nil => simp
  | cons d ds ih =>
    rw [State.process, List.append_eq_nil_iff] at h
    intro e he
    rcases List.mem_cons.mp he with rfl | he
    · exact visit_holds s e (hp e (by simp)) h.1 _ (process_keeps _ ds)
    · exact ih (fun d hd => hp d (List.mem_cons_of_mem _ hd)) _ h.2 e he

theorem mem_constructors {ds : List Decl} {n : String} {vs : List (String × List Ty)} {v : String × List Ty} (h : Decl.adt n vs ∈ ds) (hv : v ∈ vs) :
    (⟨n, v.1, v.2⟩ : Info) ∈ constructors ds := by
  induction ds with
  | nil => simp at h
  | cons d ds ih =>
    rcases List.mem_cons.mp h with rfl | h
    · rw [constructors, List.mem_append]
      exact .inl (List.mem_map.mpr ⟨v, hv, rfl⟩)
    · have := ih h
      cases d <;> simp [constructors, this]

theorem source_holds (gen : List Info → List Info) (hgen : ∀ l, (gen l).Perm l) (s : State) (ds : List Decl) (h : (s.process (source gen ds)).2 = []) :
    ∀ d ∈ ds, Holds (s.process (source gen ds)).1.types (s.process (source gen ds)).1.relTypes d := by
  intro d hd
  have hs := process_holds _ (source_plain gen ds) s h
  have ht := hs (transformed d) (List.mem_append_left _ (List.mem_map_of_mem hd))
  cases d with
  | synonym n ty => exact ht
  | enum n => exact ht
  | relation r args => exact ht
  | adt n vs =>
    have hty : (s.process (source gen ds)).1.types n = some .entity := ht.2
    refine ⟨hty, fun v hv => ?_⟩
    have hm := hs (Info.decl ⟨n, v.1, v.2⟩) (List.mem_append_right _ (List.mem_map_of_mem ((hgen _).mem_iff.mpr (mem_constructors hd hv))))
    obtain ⟨ts, h1, h2⟩ := hm
    cases h1 with
    | cons a b =>
      rename_i t ts
      refine ⟨ts, b, ?_⟩
      have : valueOf (s.process (source gen ds)).1.types (.named n) = some t := a
      rw [valueOf, hty] at this
      cases this
      exact h2

theorem Holds.keeps {s s' : State} (hk : Keeps s s') (d : Decl)
    (hd : ∀ r, (∃ args, d = .relation r args) ∨ (∃ n vs v, d = .adt n vs ∧ v ∈ vs ∧ r = Ent.adtName v.1) → s.declared r = true)
    (h : Holds s.types s.relTypes d) : Holds s'.types s'.relTypes d := by
  cases d with
  | synonym n ty =>
    obtain ⟨h1, h2⟩ := h
    obtain ⟨t, ht⟩ := Option.isSome_iff_exists.mp h1
    have e1 := hk.1 n t ht
    have e2 := valueOf_keeps hk (h2 ▸ ht : valueOf s.types ty = some t)
    exact ⟨by simp [e1], e1.trans e2.symm⟩
  | enum n => exact hk.1 n _ h
  | relation r args =>
    obtain ⟨ts, h1, h2⟩ := h
    exact ⟨ts, valuesOf_keeps hk h1, ((hk.2 r (hd r (.inl ⟨args, rfl⟩))).2).trans h2⟩
  | adt n vs =>
    refine ⟨hk.1 n _ h.1, fun v hv => ?_⟩
    obtain ⟨ts, h1, h2⟩ := h.2 v hv
    exact ⟨ts, valuesOf_keeps hk h1, ((hk.2 _ (hd _ (.inr ⟨n, vs, v, rfl, hv, rfl⟩))).2).trans h2⟩

/-- Not a relation. -/
def Decl.isType : Decl → Bool
  | .relation _ _ => false
  | _ => true

theorem addType_types (s s' : State) (h : s.types = s'.types) (n : String) (ty : Ty) : (s.addType n ty).1.types = (s'.addType n ty).1.types := by
  rw [State.addType, State.addType, h]
  by_cases hn : (s'.types n).isSome
  · simp [hn, h]
  · simp only [hn, if_false, Bool.false_eq_true]
    cases find s'.types ty <;> simp [h]

theorem addRelation_types (s : State) (r : String) (args : List Ty) : (s.addRelation r args).1.types = s.types := by
  rw [State.addRelation]
  by_cases h : s.declared r = true
  · simp [h]
  · simp only [h, if_false, Bool.false_eq_true]
    cases findAll s.types args <;> rfl

theorem process_types (ds : List Decl) (s s' : State) (h : s.types = s'.types) :
    (s.process ds).1.types = (s'.process (ds.filter Decl.isType)).1.types := by
  induction ds generalizing s s' with
  | nil => exact h
  | cons d ds ih =>
    cases d with
    | synonym n ty => exact ih _ _ (addType_types s s' h n ty)
    | enum n => exact ih _ _ (addType_types s s' h n _)
    | adt n vs => exact ih _ _ h
    | relation r args => exact ih _ _ ((addRelation_types s r args).trans h)

theorem process_append (a b : List Decl) (s : State) : (s.process (a ++ b)).1 = ((s.process a).1.process b).1 := by
  induction a generalizing s with
  | nil => rfl
  | cons d a ih => exact ih _

theorem visit_frame (s : State) (d : Decl) (r : String) :
    ((s.visit d).1.declared r = true ↔ s.declared r = true ∨ ∃ args, d = .relation r args) ∧
    ((∀ args, d ≠ .relation r args) → (s.visit d).1.relTypes r = s.relTypes r) := by
  have addT (n : String) (ty : Ty) : (s.addType n ty).1.declared = s.declared ∧ (s.addType n ty).1.relTypes = s.relTypes := by
    rw [State.addType]
    by_cases hn : (s.types n).isSome
    · simp [hn]
    · simp only [hn, if_false, Bool.false_eq_true]
      cases find s.types ty <;> simp
  cases d with
  | synonym n ty => simp [State.visit, addT]
  | enum n => simp [State.visit, addT]
  | adt n vs => simp [State.visit]
  | relation q args =>
    rw [State.visit, State.addRelation]
    by_cases h : s.declared q = true
    · simp only [h, if_true, Decl.relation.injEq, ne_eq, implies_true, and_true]
      constructor
      · exact .inl
      · rintro (h' | ⟨_, rfl, _⟩)
        · exact h'
        · exact h
    · simp only [h, if_false, Bool.false_eq_true]
      cases findAll s.types args with
      | error e =>
        by_cases hr : r = q
        · simp [hr]
        · simp [hr, Ne.symm hr]
      | ok ts =>
        by_cases hr : r = q
        · simp [hr]
        · simp [hr, Ne.symm hr]

theorem process_frame (ds : List Decl) (s : State) (r : String) :
    ((s.process ds).1.declared r = true ↔ s.declared r = true ∨ ∃ args, Decl.relation r args ∈ ds) ∧
    ((∀ args, Decl.relation r args ∉ ds) → (s.process ds).1.relTypes r = s.relTypes r) := by
  induction ds generalizing s with
  | nil => simp [State.process]
  | cons d ds ih =>
    obtain ⟨h1, h2⟩ := visit_frame s d r
    obtain ⟨h3, h4⟩ := ih (s.visit d).1
    constructor
    · show (((s.visit d).1.process ds).1.declared r = true) ↔ _
      rw [h3, h1, or_assoc]
      simp only [List.mem_cons, exists_or, eq_comm]
    · intro h
      show ((s.visit d).1.process ds).1.relTypes r = _
      rw [h4 (fun args hm => h args (List.mem_cons_of_mem _ hm)), h2 (fun args he => h args (by simp [he]))]

theorem constructors_append (a b : List Decl) : constructors (a ++ b) = constructors a ++ constructors b := by
  induction a with
  | nil => rfl
  | cons d a ih => cases d <;> simp [constructors, ih]

/-- The relations that declarations make. -/
def Makes (ds : List Decl) (r : String) : Prop := (∃ args, Decl.relation r args ∈ ds) ∨ ∃ i ∈ constructors ds, r = Ent.adtName i.name

theorem source_makes (gen : List Info → List Info) (hgen : ∀ l, (gen l).Perm l) (ds : List Decl) (r : String) :
    (∃ args, Decl.relation r args ∈ source gen ds) ↔ Makes ds r := by
  simp only [source, List.mem_append, relation_transformed, exists_or, Makes]
  apply or_congr Iff.rfl
  constructor
  · rintro ⟨args, h⟩
    obtain ⟨i, hi, he⟩ := List.mem_map.mp h
    simp only [Info.decl, Decl.relation.injEq] at he
    exact ⟨i, (hgen _).mem_iff.mp hi, he.1.symm⟩
  · rintro ⟨i, hi, rfl⟩
    exact ⟨_, List.mem_map.mpr ⟨i, (hgen _).mem_iff.mpr hi, rfl⟩⟩

theorem makes_append (a b : List Decl) (r : String) : Makes (a ++ b) r ↔ Makes a r ∨ Makes b r := by
  simp only [Makes, List.mem_append, constructors_append, exists_or, or_and_right]
  exact iff_of_eq (by ac_rfl)

theorem source_types (gen : List Info → List Info) (ds : List Decl) (s s' : State) (h : s.types = s'.types) :
    (s.process (source gen ds)).1.types = (s'.process ((ds.map transformed).filter Decl.isType)).1.types := by
  rw [process_types _ s s' h, source, List.filter_append]
  have : ((gen (constructors ds)).map Info.decl).filter Decl.isType = [] := by
    apply List.filter_eq_nil_iff.mpr
    intro d hd
    obtain ⟨i, _, rfl⟩ := List.mem_map.mp hd
    simp [Info.decl, Decl.isType]
  rw [this, List.append_nil]

theorem two_types (gen : List Info → List Info) (a b : List Decl) (s : State) :
    (s.process (source gen (a ++ b))).1.types = ((s.process (source gen a)).1.process (source gen b)).1.types := by
  rw [source_types gen (a ++ b) s s rfl, List.map_append, List.filter_append, process_append,
    ← source_types gen b (s.process (source gen a)).1 (s.process ((a.map transformed).filter Decl.isType)).1 (source_types gen a s s rfl)]

theorem forall₂_unique {types : String → Option VTy} {tys : List Ty} {ts us : List VTy} (h : List.Forall₂ (fun ty t => valueOf types ty = some t) tys ts)
    (h' : List.Forall₂ (fun ty t => valueOf types ty = some t) tys us) : ts = us := by
  induction h generalizing us with
  | nil => cases h'; rfl
  | cons a _ ih =>
    cases h' with
    | cons b c => rw [ih c, Option.some.inj (a.symm.trans b)]

theorem constructors_mem {ds : List Decl} {i : Info} (h : i ∈ constructors ds) : ∃ vs, Decl.adt i.type vs ∈ ds ∧ (i.name, i.args) ∈ vs := by
  induction ds with
  | nil => simp [constructors] at h
  | cons d ds ih =>
    have hc : i ∈ constructors ds → ∃ vs, Decl.adt i.type vs ∈ d :: ds ∧ (i.name, i.args) ∈ vs := by
      intro h
      obtain ⟨vs, h1, h2⟩ := ih h
      exact ⟨vs, List.mem_cons_of_mem _ h1, h2⟩
    cases d with
    | synonym n ty => exact hc h
    | enum n => exact hc h
    | relation r args => exact hc h
    | adt n vs =>
      rw [constructors, List.mem_append] at h
      rcases h with h | h
      · obtain ⟨v, hv, rfl⟩ := List.mem_map.mp h
        exact ⟨vs, List.mem_cons_self, hv⟩
      · exact hc h

theorem holds_unique {types : String → Option VTy} {rels rels' : String → Option (List VTy)} {ds : List Decl} {r : String} (hm : Makes ds r)
    (h : ∀ d ∈ ds, Holds types rels d) (h' : ∀ d ∈ ds, Holds types rels' d) : rels r = rels' r := by
  rcases hm with ⟨args, hd⟩ | ⟨i, hi, rfl⟩
  · obtain ⟨ts, h1, h2⟩ := h _ hd
    obtain ⟨us, h3, h4⟩ := h' _ hd
    rw [h2, h4, forall₂_unique h1 h3]
  · obtain ⟨vs, hd, hv⟩ := constructors_mem hi
    obtain ⟨ts, h1, h2⟩ := (h _ hd).2 _ hv
    obtain ⟨us, h3, h4⟩ := (h' _ hd).2 _ hv
    rw [h2, h4, forall₂_unique h1 h3]

theorem right_append {T R T' R' : String → Prop} {a b : List Decl} (ha : Right T R a) (hb : Right T' R' b)
    (hT : ∀ n, T' n ↔ T n ∨ ∃ d ∈ a, d.typeName = some n) (hR : ∀ r, R' r ↔ R r ∨ Makes a r) : Right T R (a ++ b) := by
  obtain ⟨a1, a2, a3⟩ := ha
  obtain ⟨b1, b2, b3⟩ := hb
  have mono : ∀ {T R R' : String → Prop} {ds : List Decl}, (∀ r, R r → R' r) → Orderly T R' ds → Orderly T R ds := by
    intro T R R' ds hr h
    induction ds generalizing T R R' with
    | nil => trivial
    | cons d ds ih =>
      cases d with
      | synonym n ty => exact ⟨h.1, h.2.1, ih hr h.2.2⟩
      | enum n => exact ⟨h.1, ih hr h.2⟩
      | adt n vs => exact ⟨h.1, ih hr h.2⟩
      | relation r args => exact ⟨fun hc => h.1 (hr r hc), h.2.1, ih (fun x => Or.imp_left (hr x)) h.2.2⟩
  have fresh : ∀ {T R : String → Prop} {ds : List Decl} {r : String} {args : List Ty}, Orderly T R ds → Decl.relation r args ∈ ds → ¬ R r := by
    intro T R ds r args h hm
    induction ds generalizing T R with
    | nil => simp at hm
    | cons d ds ih =>
      rcases List.mem_cons.mp hm with rfl | hm'
      · exact h.1
      · clear hm
        cases d with
        | synonym n ty => exact ih h.2.2 hm'
        | enum n => exact ih h.2 hm'
        | adt n vs => exact ih h.2 hm'
        | relation q as => exact fun hc => ih h.2.2 hm' (.inl hc)
  refine ⟨?_, ?_, ?_⟩
  · rw [orderly_append]
    refine ⟨a1, mono (R' := R') (fun r h => (hR r).mpr (h.imp id .inl)) ((Orderly.congr hT (fun _ => Iff.rfl) b).mp b1)⟩
  · rw [constructors_append, List.map_append, List.nodup_append]
    refine ⟨a2, b2, ?_⟩
    intro x hx y hy he
    obtain ⟨i, hi, rfl⟩ := List.mem_map.mp hx
    obtain ⟨j, hj, rfl⟩ := List.mem_map.mp hy
    exact (b3 j hj).1 ((hR _).mpr (.inr (.inr ⟨i, hi, by rw [he]⟩)))
  · intro i hi
    rw [constructors_append, List.mem_append] at hi
    have up : ∀ ty, Known T' ty ∨ Known (fun n => T n ∨ ∃ d ∈ a, d.typeName = some n) ty ∨ Known (fun n => T' n ∨ ∃ d ∈ b, d.typeName = some n) ty →
        Known (fun n => T n ∨ ∃ d ∈ a ++ b, d.typeName = some n) ty := by
      intro ty h
      cases ty with
      | base t => trivial
      | named n =>
        simp only [Known, hT, List.mem_append, or_and_right, exists_or] at h ⊢
        rcases h with (h | h) | (h | h) | ((h | h) | h)
        all_goals first | exact .inl h | exact .inr (.inl h) | exact .inr (.inr h)
    rcases hi with hi | hi
    · obtain ⟨h1, h2, h3⟩ := a3 i hi
      refine ⟨h1, fun args hm => ?_, fun ty hty => up ty (.inr (.inl (h3 ty hty)))⟩
      rcases List.mem_append.mp hm with hm | hm
      · exact h2 args hm
      · exact fresh b1 hm ((hR _).mpr (.inr (.inr ⟨i, hi, rfl⟩)))
    · obtain ⟨h1, h2, h3⟩ := b3 i hi
      refine ⟨fun h => h1 ((hR _).mpr (.inl h)), fun args hm => ?_, fun ty hty => up ty (.inr (.inr (h3 ty hty)))⟩
      rcases List.mem_append.mp hm with hm | hm
      · exact h1 ((hR _).mpr (.inr (.inl ⟨args, hm⟩)))
      · exact h2 args hm

theorem addType_some (s : State) (n : String) (ty : Ty) (m : String) (h : ((s.addType n ty).1.types m).isSome) : (s.types m).isSome ∨ n = m := by
  rw [State.addType] at h
  by_cases hn : (s.types n).isSome
  · simp only [hn, if_true] at h; exact .inl h
  · simp only [hn, if_false, Bool.false_eq_true] at h
    cases hf : find s.types ty with
    | error e => simp only [hf] at h; exact .inl h
    | ok t =>
      simp only [hf] at h
      by_cases hm : m = n
      · exact .inr hm.symm
      · simp only [hm, if_false] at h; exact .inl h

theorem process_some (ds : List Decl) (s : State) (m : String) (h : ((s.process ds).1.types m).isSome) :
    (s.types m).isSome ∨ ∃ d ∈ ds, d.typeName = some m := by
  induction ds generalizing s with
  | nil => exact .inl h
  | cons d ds ih =>
    rcases ih _ h with h | ⟨e, he, hn⟩
    · cases d with
      | synonym n ty => exact (addType_some s n ty m h).imp id fun he => ⟨_, List.mem_cons_self, by rw [Decl.typeName, he]⟩
      | enum n => exact (addType_some s n _ m h).imp id fun he => ⟨_, List.mem_cons_self, by rw [Decl.typeName, he]⟩
      | adt n vs => exact .inl h
      | relation r args => exact .inl ((addRelation_types s r args) ▸ h)
    · exact .inr ⟨e, List.mem_cons_of_mem _ he, hn⟩

theorem source_known (gen : List Info → List Info) (hgen : ∀ l, (gen l).Perm l) (s : State) (ds : List Decl) (h : (s.process (source gen ds)).2 = [])
    (n : String) : ((s.process (source gen ds)).1.types n).isSome = true ↔ (s.types n).isSome = true ∨ ∃ d ∈ ds, d.typeName = some n := by
  constructor
  · intro hs
    rcases process_some _ s n hs with h | ⟨d, hd, hn⟩
    · exact .inl h
    · rcases List.mem_append.mp hd with hd | hd
      · obtain ⟨e, he, rfl⟩ := List.mem_map.mp hd
        exact .inr ⟨e, he, (typeName_transformed e) ▸ hn⟩
      · obtain ⟨i, _, rfl⟩ := List.mem_map.mp hd
        simp [Info.decl, Decl.typeName] at hn
  · rintro (hs | ⟨d, hd, hn⟩)
    · obtain ⟨t, ht⟩ := Option.isSome_iff_exists.mp hs
      simp [(process_keeps s (source gen ds)).1 n t ht]
    · have hh := source_holds gen hgen s ds h d hd
      cases d with
      | synonym m ty => cases hn; exact hh.1
      | enum m => cases hn; have : _ = _ := hh; simp [this]
      | adt m vs => cases hn; simp [hh.1]
      | relation r args => simp [Decl.typeName] at hn

end Scallop.Declare
