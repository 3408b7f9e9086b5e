import Verif.Spec.Constants

/-!
# Constants: the state of the analysis after a correct program
-/

namespace Scallop.Consts

open Ty Ent

variable {F : Type} {h : Hash F}

/-! ## Lookups -/

theorem has_iff {s : St F} {x : String} : s.has x = true ↔ x ∈ s.vars.map Prod.fst := by
  simp [St.has]

theorem get_isSome {s : St F} {x : String} : (s.get x).isSome = s.has x := by
  unfold St.get St.has
  induction s.vars with
  | nil => rfl
  | cons p l ih =>
    by_cases hp : p.1 = x
    · simp [hp]
    · simp only [List.find?_cons, hp, decide_false, List.any_cons, Bool.false_or]
      exact ih

theorem get_cons {s : St F} {x y : String} {d : Option VTy × (Const F × Ent.Loc)} :
    St.get { s with vars := (x, d) :: s.vars } y = if x = y then some d else s.get y := by
  unfold St.get
  by_cases hp : x = y <;> simp [hp]

theorem get_mem {s : St F} {x : String} {d : Option VTy × (Const F × Ent.Loc)} (hg : s.get x = some d) : (x, d) ∈ s.vars := by
  unfold St.get at hg
  rw [Option.map_eq_some_iff] at hg
  obtain ⟨p, hp, rfl⟩ := hg
  have h1 := List.find?_some hp
  simp only [decide_eq_true_eq] at h1
  subst h1
  exact List.mem_of_find?_eq_some hp

/-! ## No panic -/

mutual
theorem toFacts_ok {vars : String → Option (Const F × Ent.Loc)} {has : String → Bool} (hv : ∀ x, has x = true → (vars x).isSome) :
    ∀ {t : Term F}, allConstant has t = true → ∃ r, t.toFacts h vars = .ok r
  | .const c l, _ => ⟨_, rfl⟩
  | .var x, ha => by
    have := hv x ha
    obtain ⟨c, hc⟩ := Option.isSome_iff_exists.1 this
    exact ⟨(c, []), by simp [Term.toFacts, hc]⟩
  | .other, ha => by simp [allConstant] at ha
  | .obj f args l, ha => by
    obtain ⟨r, hr⟩ := toFactsArgs_ok hv (ts := args) ha
    exact ⟨_, by simp only [Term.toFacts, hr, Outcome.bind]; rfl⟩
theorem toFactsArgs_ok {vars : String → Option (Const F × Ent.Loc)} {has : String → Bool} (hv : ∀ x, has x = true → (vars x).isSome) :
    ∀ {ts : List (Term F)}, allConstantArgs has ts = true → ∃ r, Term.toFactsArgs h vars ts = .ok r
  | [], _ => ⟨_, rfl⟩
  | t :: ts, ha => by
    simp only [allConstantArgs, Bool.and_eq_true] at ha
    obtain ⟨r, hr⟩ := toFacts_ok hv ha.1
    obtain ⟨r', hr'⟩ := toFactsArgs_ok hv ha.2
    exact ⟨_, by simp only [Term.toFactsArgs, hr, hr', Outcome.bind]; rfl⟩
end

mutual
theorem allConstant_iff {has : String → Bool} {names : List String} (hn : ∀ x, has x = true ↔ x ∈ names) :
    ∀ {t : Term F}, allConstant has t = true ↔ Over names t
  | .const c l => by simp [allConstant, Over]
  | .var x => by simp [allConstant, Over, hn]
  | .other => by simp [allConstant, Over]
  | .obj f args l => by simp only [allConstant, Over]; exact allConstantArgs_iff hn
theorem allConstantArgs_iff {has : String → Bool} {names : List String} (hn : ∀ x, has x = true ↔ x ∈ names) :
    ∀ {ts : List (Term F)}, allConstantArgs has ts = true ↔ OverAll names ts
  | [] => by simp [allConstantArgs, OverAll]
  | t :: ts => by simp only [allConstantArgs, OverAll, Bool.and_eq_true, allConstant_iff hn, allConstantArgs_iff hn]
end

theorem visit_ok (s : St F) (i : Item F) : ∃ s', visit h s i = .ok s' := by
  cases i with
  | const x ty t =>
    simp only [visit]
    split
    · exact ⟨_, rfl⟩
    · split
      · next ha =>
        obtain ⟨r, hr⟩ := toFacts_ok (h := h) (vars := fun y => (s.get y).map Prod.snd) (has := s.has)
          (fun x hx => by rw [Option.isSome_map, get_isSome]; exact hx) ha
        exact ⟨_, by rw [hr]; rfl⟩
      · exact ⟨_, rfl⟩
  | enum ms => exact ⟨_, rfl⟩
  | set vs => exact ⟨_, rfl⟩
  | fact vs d => exact ⟨_, rfl⟩
  | other vs bs => exact ⟨_, rfl⟩

theorem analyse_ok : ∀ (is : List (Item F)) (s : St F), ∃ s', analyse h s is = .ok s'
  | [], s => ⟨s, rfl⟩
  | i :: is, s => by
    obtain ⟨s1, h1⟩ := visit_ok (h := h) s i
    obtain ⟨s2, h2⟩ := analyse_ok is s1
    exact ⟨s2, by simp only [analyse, h1, Outcome.bind, h2]⟩

theorem analyse_append : ∀ (is js : List (Item F)) (s : St F), analyse h s (is ++ js) = (analyse h s is).bind fun s => analyse h s js
  | [], js, s => rfl
  | i :: is, js, s => by
    obtain ⟨s1, h1⟩ := visit_ok (h := h) s i
    simp only [List.cons_append, analyse, h1, Outcome.bind]
    exact analyse_append is js s1

/-! ## Errors stay -/

theorem use_errors (s : St F) (o : Occ) : (s.use o).errors = s.errors := by
  unfold St.use; split <;> rfl

theorem use_vars (s : St F) (o : Occ) : (s.use o).vars = s.vars ∧ (s.use o).facts = s.facts := by
  unfold St.use; split <;> exact ⟨rfl, rfl⟩

theorem foldl_use (vs : List Occ) (s : St F) : (vs.foldl St.use s).errors = s.errors ∧ (vs.foldl St.use s).vars = s.vars ∧
    (vs.foldl St.use s).facts = s.facts := by
  induction vs generalizing s with
  | nil => exact ⟨rfl, rfl, rfl⟩
  | cons o vs ih =>
    obtain ⟨h1, h2, h3⟩ := ih (s.use o)
    exact ⟨h1.trans (use_errors s o), h2.trans (use_vars s o).1, h3.trans (use_vars s o).2⟩

theorem has_use {s : St F} {o : Occ} {x : String} : (s.use o).has x = s.has x := by
  unfold St.has; rw [(use_vars s o).1]

theorem foldl_use_uses (vs : List Occ) (s : St F) (k : Nat) (n : String) : (k, n) ∈ (vs.foldl St.use s).uses ↔
    (k, n) ∈ s.uses ∨ ∃ o ∈ vs, o.id = k ∧ o.name = n ∧ s.has n = true := by
  induction vs generalizing s with
  | nil => simp
  | cons o vs ih =>
    rw [List.foldl_cons, ih]
    simp only [has_use, List.mem_cons, exists_eq_or_imp]
    unfold St.use
    split
    · next ho =>
      simp only [List.mem_cons, Prod.mk.injEq]
      constructor
      · rintro ((⟨rfl, rfl⟩ | h1) | h1)
        · exact Or.inr (Or.inl ⟨rfl, rfl, ho⟩)
        · exact Or.inl h1
        · exact Or.inr (Or.inr h1)
      · rintro (h1 | ⟨rfl, rfl, -⟩ | h1)
        · exact Or.inl (Or.inr h1)
        · exact Or.inl (Or.inl ⟨rfl, rfl⟩)
        · exact Or.inr h1
    · next ho =>
      constructor
      · rintro (h1 | h1)
        · exact Or.inl h1
        · exact Or.inr (Or.inr h1)
      · rintro (h1 | ⟨rfl, rfl, h2⟩ | h1)
        · exact Or.inl h1
        · exact absurd h2 ho
        · exact Or.inr h1

theorem foldl_mustUse (vs : List Occ) (s : St F) : s.errors <+: (vs.foldl St.mustUse s).errors ∧ (vs.foldl St.mustUse s).vars = s.vars := by
  induction vs generalizing s with
  | nil => exact ⟨List.prefix_refl _, rfl⟩
  | cons o vs ih =>
    obtain ⟨h1, h2⟩ := ih (s.mustUse o)
    rw [List.foldl_cons]
    have : s.errors <+: (s.mustUse o).errors ∧ (s.mustUse o).vars = s.vars := by
      unfold St.mustUse
      split
      · exact ⟨by rw [use_errors]; exact List.prefix_refl _, (use_vars s o).1⟩
      · exact ⟨List.prefix_append _ _, rfl⟩
    exact ⟨this.1.trans h1, h2.trans this.2⟩

theorem foldl_mustUse_ok (vs : List Occ) (s : St F) (hs : s.errors = []) :
    (vs.foldl St.mustUse s).errors = [] ↔ ∀ o ∈ vs, s.has o.name = true := by
  induction vs generalizing s with
  | nil => simpa using hs
  | cons o vs ih =>
    rw [List.foldl_cons]
    by_cases ho : s.has o.name = true
    · have h1 : s.mustUse o = s.use o := by unfold St.mustUse; rw [if_pos ho]
      rw [h1, ih _ (by rw [use_errors]; exact hs)]
      simp only [has_use, List.mem_cons, forall_eq_or_imp, ho, true_and]
    · have h1 : s.mustUse o = { s with errors := s.errors ++ [.unknown o.name] } := by unfold St.mustUse; rw [if_neg ho]
      constructor
      · intro he
        have := (foldl_mustUse vs (s.mustUse o)).1
        rw [he, h1] at this
        simp at this
      · intro ha
        exact absurd (ha o (by simp)) ho

theorem foldl_mustUse_eq (vs : List Occ) (s : St F) (ha : ∀ o ∈ vs, s.has o.name = true) : vs.foldl St.mustUse s = vs.foldl St.use s := by
  induction vs generalizing s with
  | nil => rfl
  | cons o vs ih =>
    have h1 : s.mustUse o = s.use o := by unfold St.mustUse; rw [if_pos (ha o (by simp))]
    rw [List.foldl_cons, List.foldl_cons, h1]
    exact ih _ fun o' ho' => by rw [has_use]; exact ha o' (List.mem_cons_of_mem _ ho')

theorem foldl_bind (bs : List String) (s : St F) :
    let s' := bs.foldl (fun s b => if s.has b then { s with errors := s.errors ++ [.inBinding b] } else s) s
    s.errors <+: s'.errors ∧ s'.vars = s.vars ∧ s'.uses = s.uses ∧ s'.facts = s.facts ∧ (s.errors = [] → (s'.errors = [] ↔ ∀ b ∈ bs, s.has b = false)) := by
  induction bs generalizing s with
  | nil => exact ⟨List.prefix_refl _, rfl, rfl, rfl, fun h => by simpa using h⟩
  | cons b bs ih =>
    simp only [List.foldl_cons]
    by_cases hb : s.has b = true
    · rw [if_pos hb]
      obtain ⟨h1, h2, h3, h4, -⟩ := ih { s with errors := s.errors ++ [.inBinding b] }
      refine ⟨(List.prefix_append _ _).trans h1, h2, h3, h4, fun _ => ⟨fun he => ?_, fun ha => ?_⟩⟩
      · rw [he] at h1; simp at h1
      · exact absurd (ha b (by simp)) (by simp [hb])
    · rw [if_neg hb]
      obtain ⟨h1, h2, h3, h4, h5⟩ := ih s
      refine ⟨h1, h2, h3, h4, fun hs => (h5 hs).trans ?_⟩
      simp only [List.mem_cons, forall_eq_or_imp, Bool.not_eq_true] at hb ⊢
      simp [hb]

/-! ## Enumerations -/

theorem wrap_small {m : Int} (h0 : 0 ≤ m) (h1 : m + 1 < 2 ^ 63) : wrap .i64 (m + 1) = m + 1 := by
  unfold wrap
  have e : IntTy.i64.lo = -9223372036854775808 := by decide
  rw [e]
  simp only [IntTy.bits]
  omega

/-- The state with the members added. -/
def withMembers (s : St F) (ms : List (String × Option (Const F))) (vs : List Int) : St F :=
  (ms.zip vs).foldl (fun s p => { s with vars := (p.1.1, some (.int .usize), (.int p.2, ⟨0, 0, 0⟩)) :: s.vars }) s

theorem members_errors : ∀ (ms : List (String × Option (Const F))) (s : St F) (prev : Option Int), s.errors <+: (processMembers s prev ms).errors
  | [], s, _ => List.prefix_refl _
  | m :: ms, s, prev => by
    simp only [processMembers]
    cases extractValue m prev with
    | error e => exact List.prefix_append _ _
    | ok id =>
      simp only
      cases hp : processMember s m.1 id with
      | error e => exact List.prefix_append _ _
      | ok s' =>
        have : s'.errors = s.errors := by
          unfold processMember at hp
          split at hp
          · simp at hp
          · simp only [Except.ok.injEq] at hp; subst hp; rfl
        rw [← this]
        exact members_errors ms s' _

theorem members_spec : ∀ (ms : List (String × Option (Const F))) (s : St F) (prev : Option Int), s.errors = [] → ms.length < 2 ^ 62 →
    (∀ p, prev = some p → 0 ≤ p ∧ p + ms.length < 2 ^ 63) → (∀ x i, (x, some (.int i)) ∈ ms → i < 2 ^ 62) →
    ((ms.map Prod.fst).Nodup ∧ (∀ x ∈ ms.map Prod.fst, s.has x = false) ∧ ∃ vs, Numbered prev ms vs ∧ processMembers s prev ms = withMembers s ms vs) ∨
    ((processMembers s prev ms).errors ≠ [] ∧ ¬ ((ms.map Prod.fst).Nodup ∧ (∀ x ∈ ms.map Prod.fst, s.has x = false) ∧ ∃ vs, Numbered prev ms vs))
  | [], s, prev, hs, _, _, _ => Or.inl ⟨by simp, by simp, [], .nil, rfl⟩
  | m :: ms, s, prev, hs, hl, hp, hr => by
    simp only [List.length_cons] at hl
    -- the number of the member, and what it means for the rest
    have key : (∃ id, extractValue m prev = .ok id ∧ 0 ≤ id ∧ id + ms.length < 2 ^ 63 ∧ (∀ vs, Numbered (some id) ms vs → Numbered prev (m :: ms) (id :: vs)) ∧
        ∀ vs, Numbered prev (m :: ms) vs → ∃ vs', vs = id :: vs' ∧ Numbered (some id) ms vs') ∨
        (∃ e, extractValue m prev = .error e ∧ ∀ vs, ¬ Numbered prev (m :: ms) vs) := by
      obtain ⟨x, c⟩ := m
      have hnext : nextId prev = after prev ∧ 0 ≤ after prev ∧ after prev + ms.length < 2 ^ 63 := by
        cases prev with
        | none => exact ⟨rfl, by simp only [after]; omega, by simp only [after]; omega⟩
        | some p =>
          obtain ⟨h1, h2⟩ := hp p rfl
          rw [List.length_cons] at h2
          simp only [nextId, after]
          exact ⟨wrap_small h1 (by omega), by omega, by omega⟩
      have hfree : (∀ i, c = some (.int i) → i < 0) → extractValue (x, c) prev = .ok (nextId prev) → _ := fun hc he =>
        (⟨nextId prev, he, by rw [hnext.1]; exact hnext.2.1, by rw [hnext.1]; exact hnext.2.2,
          fun vs hv => by rw [hnext.1] at hv ⊢; exact .free hc hv, fun vs hv => by
            rw [hnext.1]
            cases hv with
            | given h0 _ _ => exact absurd (hc _ rfl) (by omega)
            | free _ h2 => exact ⟨_, rfl, h2⟩⟩ :
          ∃ id, extractValue (x, c) prev = .ok id ∧ 0 ≤ id ∧ id + ms.length < 2 ^ 63 ∧
            (∀ vs, Numbered (some id) ms vs → Numbered prev ((x, c) :: ms) (id :: vs)) ∧
            ∀ vs, Numbered prev ((x, c) :: ms) vs → ∃ vs', vs = id :: vs' ∧ Numbered (some id) ms vs')
      by_cases hc : ∃ i, c = some (.int i) ∧ 0 ≤ i
      · obtain ⟨i, rfl, hi⟩ := hc
        have hlt := hr x i (by simp)
        have hgiven : (∀ p, prev = some p → p < i) → extractValue (x, (some (.int i) : Option (Const F))) prev = .ok i → _ := fun hgt he =>
          (⟨i, he, hi, by omega, fun vs hv => .given hi hgt hv, fun vs hv => by
            cases hv with
            | given _ _ h2 => exact ⟨_, rfl, h2⟩
            | free h1 _ => exact absurd (h1 i rfl) (by omega)⟩ :
            ∃ id, extractValue (x, some (.int i)) prev = .ok id ∧ 0 ≤ id ∧ id + ms.length < 2 ^ 63 ∧
              (∀ vs, Numbered (some id) ms vs → Numbered prev ((x, some (.int i)) :: ms) (id :: vs)) ∧
              ∀ vs, Numbered prev ((x, some (.int i)) :: ms) vs → ∃ vs', vs = id :: vs' ∧ Numbered (some id) ms vs')
        cases prev with
        | none => exact Or.inl (hgiven (by simp) (by simp [extractValue, hi]))
        | some p =>
          by_cases hpi : p < i
          · exact Or.inl (hgiven (fun q hq => by cases hq; exact hpi) (by simp [extractValue, hi, hpi]))
          · refine Or.inr ⟨_, by simp only [extractValue, hi, if_true, hpi, if_false]; rfl, fun vs hv => ?_⟩
            cases hv with
            | given _ h1 _ => exact hpi (h1 p rfl)
            | free h1 _ => exact absurd (h1 i rfl) (by omega)
      · refine Or.inl (hfree (fun i hi => ?_) ?_)
        · by_contra hge; exact hc ⟨i, hi, by omega⟩
        · unfold extractValue
          split
          · next i hi =>
            rw [if_neg]
            intro h0
            exact hc ⟨i, hi, h0⟩
          · rfl
    rcases key with ⟨id, e1, e2, e3, e4, e5⟩ | ⟨e, e1, e2⟩
    · simp only [processMembers, e1]
      by_cases hh : s.has m.1 = true
      · right
        simp only [processMember, hh, if_true]
        refine ⟨by simp, fun hh' => ?_⟩
        have := hh'.2.1 m.1 (by simp)
        rw [hh] at this
        simp at this
      · have hpm : processMember s m.1 id = .ok { s with vars := (m.1, some (.int .usize), (.int id, ⟨0, 0, 0⟩)) :: s.vars } := by
          simp [processMember, hh]
        simp only [hpm]
        have hhas : ∀ x, St.has ({ s with vars := (m.1, some (.int .usize), (.int id, ⟨0, 0, 0⟩)) :: s.vars } : St F) x =
            (decide (m.1 = x) || s.has x) := fun x => by simp [St.has]
        rcases members_spec ms { s with vars := (m.1, some (.int .usize), (.int id, ⟨0, 0, 0⟩)) :: s.vars } (some id) hs (by omega)
          (fun p hp => by cases hp; exact ⟨e2, e3⟩) (fun x i hx => hr x i (List.mem_cons_of_mem _ hx)) with ⟨h1, h2, vs, h3, h4⟩ | ⟨h1, h2⟩
        · left
          refine ⟨?_, ?_, id :: vs, e4 vs h3, ?_⟩
          · rw [List.map_cons, List.nodup_cons]
            refine ⟨fun hm => ?_, h1⟩
            have := h2 _ hm
            rw [hhas] at this
            simp at this
          · intro x hx
            rw [List.map_cons, List.mem_cons] at hx
            rcases hx with rfl | hx
            · simpa using hh
            · have := h2 x hx
              rw [hhas] at this
              simp only [Bool.or_eq_false_iff] at this
              exact this.2
          · rw [h4]; rfl
        · right
          refine ⟨h1, fun hh' => h2 ?_⟩
          obtain ⟨g1, g2, vs, g3⟩ := hh'
          rw [List.map_cons, List.nodup_cons] at g1
          obtain ⟨vs', -, g4⟩ := e5 vs g3
          refine ⟨g1.2, fun x hx => ?_, vs', g4⟩
          rw [hhas, g2 x (List.mem_cons_of_mem _ hx)]
          simp only [Bool.or_false, decide_eq_false_iff_not]
          rintro rfl
          exact g1.1 hx
    · right
      refine ⟨by simp [processMembers, e1], fun hh => ?_⟩
      obtain ⟨-, -, vs, hv⟩ := hh
      exact e2 vs hv

theorem numbered_length {ms : List (String × Option (Const F))} {vs : List Int} {prev : Option Int} (hn : Numbered prev ms vs) : vs.length = ms.length := by
  induction hn with
  | nil => rfl
  | given _ _ _ ih => simp [ih]
  | free _ _ ih => simp [ih]

theorem withMembers_rest (ms : List (String × Option (Const F))) (vs : List Int) (s : St F) : (withMembers s ms vs).errors = s.errors ∧
    (withMembers s ms vs).uses = s.uses ∧ (withMembers s ms vs).facts = s.facts := by
  unfold withMembers
  induction ms.zip vs generalizing s with
  | nil => exact ⟨rfl, rfl, rfl⟩
  | cons p l ih => exact ih _

theorem withMembers_get : ∀ (ms : List (String × Option (Const F))) (vs : List Int) (s : St F) (x : String), (ms.map Prod.fst).Nodup →
    vs.length = ms.length → (∀ y ∈ ms.map Prod.fst, s.has y = false) →
    (∀ d, (withMembers s ms vs).get x = some d ↔ s.get x = some d ∨
      ∃ (k : Nat) (c : Option (Const F)) (v : Int), ms[k]? = some (x, c) ∧ vs[k]? = some v ∧ d = (some (.int .usize), (.int v, ⟨0, 0, 0⟩)))
  | [], vs, s, x, _, _, _ => fun d => by simp [withMembers]
  | m :: ms, [], s, x, _, hl, _ => by simp at hl
  | m :: ms, v :: vs, s, x, hn, hl, hh => fun d => by
    rw [List.map_cons, List.nodup_cons] at hn
    have hm := hh m.1 (by simp)
    have ih := withMembers_get ms vs { s with vars := (m.1, some (.int .usize), (.int v, ⟨0, 0, 0⟩)) :: s.vars } x hn.2 (by simpa using hl)
      (fun y hy => by
        have h1 := hh y (List.mem_cons_of_mem _ hy)
        simp only [St.has, List.any_cons, Bool.or_eq_false_iff, decide_eq_false_iff_not]
        refine ⟨?_, h1⟩
        rintro rfl
        exact hn.1 hy) d
    have e : withMembers s (m :: ms) (v :: vs) =
      withMembers { s with vars := (m.1, some (.int .usize), (.int v, ⟨0, 0, 0⟩)) :: s.vars } ms vs := rfl
    rw [e, ih, get_cons]
    constructor
    · rintro (h1 | ⟨k, c, w, h1, h2, h3⟩)
      · split at h1
        · next e =>
          subst e
          simp only [Option.some.injEq] at h1
          exact Or.inr ⟨0, m.2, v, rfl, rfl, h1.symm⟩
        · exact Or.inl h1
      · exact Or.inr ⟨k + 1, c, w, h1, h2, h3⟩
    · rintro (h1 | ⟨k, c, w, h1, h2, h3⟩)
      · left
        rw [if_neg]
        · exact h1
        · rintro rfl
          have := get_isSome (s := s) (x := m.1)
          rw [hm, h1] at this
          simp at this
      · cases k with
        | zero =>
          simp only [List.getElem?_cons_zero, Option.some.injEq] at h1 h2
          subst h1 h2
          left
          rw [if_pos rfl, h3]
        | succ k => exact Or.inr ⟨k, c, w, h1, h2, h3⟩

/-! ## Values -/

theorem declares_mono {is js : List (Item F)} (hs : ∀ i ∈ is, i ∈ js) {x : String} {t : Term F} (hd : Declares is x t) : Declares js x t := by
  cases hd with
  | const h1 => exact .const (hs _ h1)
  | enum h1 h2 h3 h4 => exact .enum (hs _ h1) h2 h3 h4

theorem unfolds_mono {D D' : String → Term F → Prop} (hD : ∀ x t, D x t → D' x t) {t t' : Term F} (hu : Unfolds D t t') : Unfolds D' t t' := by
  induction hu using Unfolds.rec (motive_2 := fun ts ts' _ => UnfoldsAll D' ts ts') with
  | const => exact .const
  | var h1 _ ih => exact .var (hD _ _ h1) ih
  | obj _ ih => exact .obj ih
  | nil => exact .nil
  | cons _ _ i1 i2 => exact .cons i1 i2

theorem value_mono {is js : List (Item F)} (hs : ∀ i ∈ is, i ∈ js) {t : Term F} {c : Const F × Ent.Loc} {fs : List (CFact F)}
    (hv : ValueOf h is t c fs) : ValueOf h js t c fs := by
  obtain ⟨t', h1, h2⟩ := hv
  exact ⟨t', unfolds_mono (fun _ _ => declares_mono hs) h1, h2⟩

mutual
theorem toFacts_unfold {D : String → Term F → Prop} {vars : String → Option (Const F × Ent.Loc)} {S : List (CFact F)}
    (hv : ∀ x c, vars x = some c → ∃ t' fs, Unfolds D (.var x) t' ∧ t'.toFacts h (fun _ => none) = .ok (c, fs) ∧ ∀ f ∈ fs, f ∈ S) :
    ∀ {t : Term F} {c : Const F × Ent.Loc} {fs : List (CFact F)}, t.toFacts h vars = .ok (c, fs) →
    ∃ t' fs', Unfolds D t t' ∧ t'.toFacts h (fun _ => none) = .ok (c, fs') ∧ ∀ f ∈ fs', f ∈ S ∨ f ∈ fs
  | .const c l, _, _, hp => ⟨.const c l, _, .const, hp, fun f hf => Or.inr (by
      simp only [Term.toFacts, Outcome.ok.injEq, Prod.mk.injEq] at hp; exact hf)⟩
  | .var x, c, fs, hp => by
    simp only [Term.toFacts] at hp
    cases hx : vars x with
    | none => simp [hx] at hp
    | some d =>
      simp only [hx, Outcome.ok.injEq, Prod.mk.injEq] at hp
      obtain ⟨rfl, rfl⟩ := hp
      obtain ⟨t', fs', h1, h2, h3⟩ := hv x d hx
      exact ⟨t', fs', h1, h2, fun f hf => Or.inl (h3 f hf)⟩
  | .other, _, _, hp => by simp [Term.toFacts] at hp
  | .obj g args l, c, fs, hp => by
    simp only [Term.toFacts] at hp
    cases hr : Term.toFactsArgs h vars args with
    | undef => simp [hr, Outcome.bind] at hp
    | panic => simp [hr, Outcome.bind] at hp
    | ok r =>
      simp only [hr, Outcome.bind, Outcome.ok.injEq, Prod.mk.injEq] at hp
      obtain ⟨rfl, rfl⟩ := hp
      obtain ⟨args', fs', h1, h2, h3⟩ := toFactsArgs_unfold hv (cs := r.1) (fs := r.2) hr
      refine ⟨.obj g args' l, _, .obj h1, by simp only [Term.toFacts, h2, Outcome.bind]; rfl, fun f hf => ?_⟩
      rw [List.mem_append] at hf
      rw [List.mem_append]
      rcases hf with hf | hf
      · rcases h3 f hf with h4 | h4
        · exact Or.inl h4
        · exact Or.inr (Or.inl h4)
      · exact Or.inr (Or.inr hf)
theorem toFactsArgs_unfold {D : String → Term F → Prop} {vars : String → Option (Const F × Ent.Loc)} {S : List (CFact F)}
    (hv : ∀ x c, vars x = some c → ∃ t' fs, Unfolds D (.var x) t' ∧ t'.toFacts h (fun _ => none) = .ok (c, fs) ∧ ∀ f ∈ fs, f ∈ S) :
    ∀ {ts : List (Term F)} {cs : List (Const F × Ent.Loc)} {fs : List (CFact F)}, Term.toFactsArgs h vars ts = .ok (cs, fs) →
    ∃ ts' fs', UnfoldsAll D ts ts' ∧ Term.toFactsArgs h (fun _ => none) ts' = .ok (cs, fs') ∧ ∀ f ∈ fs', f ∈ S ∨ f ∈ fs
  | [], cs, fs, hp => ⟨[], _, .nil, hp, fun f hf => Or.inr hf⟩
  | t :: ts, cs, fs, hp => by
    simp only [Term.toFactsArgs] at hp
    cases hr : Term.toFacts h vars t with
    | undef => simp [hr, Outcome.bind] at hp
    | panic => simp [hr, Outcome.bind] at hp
    | ok r =>
      cases hr2 : Term.toFactsArgs h vars ts with
      | undef => simp [hr, hr2, Outcome.bind] at hp
      | panic => simp [hr, hr2, Outcome.bind] at hp
      | ok r2 =>
        simp only [hr, hr2, Outcome.bind, Outcome.ok.injEq, Prod.mk.injEq] at hp
        obtain ⟨rfl, rfl⟩ := hp
        obtain ⟨t', fs1, a1, a2, a3⟩ := toFacts_unfold hv (c := r.1) (fs := r.2) hr
        obtain ⟨ts', fs2, b1, b2, b3⟩ := toFactsArgs_unfold hv (cs := r2.1) (fs := r2.2) hr2
        refine ⟨t' :: ts', fs1 ++ fs2, .cons a1 b1, by simp only [Term.toFactsArgs, a2, b2, Outcome.bind], fun f hf => ?_⟩
        rw [List.mem_append] at hf
        rw [List.mem_append]
        rcases hf with hf | hf
        · rcases a3 f hf with h4 | h4
          · exact Or.inl h4
          · exact Or.inr (Or.inl h4)
        · rcases b3 f hf with h4 | h4
          · exact Or.inl h4
          · exact Or.inr (Or.inr h4)
end

/-! ## The invariant -/

/-- The type that the declaration of a name gives to its uses. -/
def TypeGiven (items : List (Item F)) (x : String) (ty : Option VTy) : Prop :=
  (∃ c l, Item.const x ty (.const c l) ∈ items) ∨ (∃ ty' t, isConstant t = false ∧ Item.const x ty' t ∈ items ∧ ty = some .entity) ∨
  (∃ ms, Item.enum ms ∈ items ∧ x ∈ ms.map Prod.fst ∧ ty = some (.int .usize))

/-- The state after the items `pre`, if they are correct. -/
structure Inv (h : Hash F) (pre : List (Item F)) (s : St F) : Prop where
  errors : s.errors = []
  has : ∀ x, s.has x = true ↔ x ∈ pre.flatMap Item.names
  value : ∀ x d, s.get x = some d → ∃ fs, ValueOf h pre (.var x) d.2 fs ∧ ∀ f ∈ fs, f ∈ s.facts
  type : ∀ x d, s.get x = some d → TypeGiven pre x d.1
  uses : ∀ k n, (k, n) ∈ s.uses ↔ ∃ p1 i p2, pre = p1 ++ i :: p2 ∧ ∃ o ∈ i.vars, o.id = k ∧ o.name = n ∧ n ∈ p1.flatMap Item.names

theorem inv_init : Inv h [] (St.init : St F) := by
  refine ⟨rfl, by simp [St.init, St.has], by simp [St.init, St.get], by simp [St.init, St.get], fun k n => ?_⟩
  simp [St.init]

theorem split_snoc {α : Type} {pre p1 p2 : List α} {i j : α} (he : pre ++ [i] = p1 ++ j :: p2) :
    (p2 = [] ∧ p1 = pre ∧ j = i) ∨ ∃ p2', p2 = p2' ++ [i] ∧ pre = p1 ++ j :: p2' := by
  rcases List.eq_nil_or_concat p2 with rfl | ⟨p2', b, rfl⟩
  · left
    have := List.append_inj' he rfl
    simp only [List.cons.injEq, and_true] at this
    exact ⟨rfl, this.1.symm, this.2.symm⟩
  · right
    rw [List.concat_eq_append, ← List.cons_append, ← List.append_assoc] at he
    have := List.append_inj' he rfl
    simp only [List.cons.injEq, and_true] at this
    exact ⟨p2', by rw [List.concat_eq_append, ← this.2], this.1⟩

theorem typeGiven_mono {is js : List (Item F)} (hs : ∀ i ∈ is, i ∈ js) {x : String} {ty : Option VTy} (hd : TypeGiven is x ty) : TypeGiven js x ty := by
  rcases hd with ⟨c, l, h1⟩ | ⟨ty', t, h1, h2, h3⟩ | ⟨ms, h1, h2, h3⟩
  · exact Or.inl ⟨c, l, hs _ h1⟩
  · exact Or.inr (Or.inl ⟨ty', t, h1, hs _ h2, h3⟩)
  · exact Or.inr (Or.inr ⟨ms, hs _ h1, h2, h3⟩)

/-- An item with variables only. -/
theorem inv_uses {pre : List (Item F)} {s s' : St F} {i : Item F} (hi : Inv h pre s) (hn : i.names = []) (he : s'.errors = []) (hv : s'.vars = s.vars)
    (hf : s'.facts = s.facts) (hu : s'.uses = (i.vars.foldl St.use s).uses) : Inv h (pre ++ [i]) s' := by
  have hg : ∀ x, s'.get x = s.get x := fun x => by unfold St.get; rw [hv]
  have hh : ∀ x, s'.has x = s.has x := fun x => by unfold St.has; rw [hv]
  refine ⟨he, fun x => ?_, fun x d hx => ?_, fun x d hx => ?_, fun k n => ?_⟩
  · rw [hh, hi.has]; simp [hn]
  · rw [hg] at hx
    obtain ⟨fs, h1, h2⟩ := hi.value x d hx
    exact ⟨fs, value_mono (fun j hj => List.mem_append_left _ hj) h1, fun f hff => by rw [hf]; exact h2 f hff⟩
  · rw [hg] at hx
    exact typeGiven_mono (fun j hj => List.mem_append_left _ hj) (hi.type x d hx)
  · rw [hu, foldl_use_uses, hi.uses]
    constructor
    · rintro (⟨p1, j, p2, rfl, h1⟩ | ⟨o, h1, h2, h3, h4⟩)
      · exact ⟨p1, j, p2 ++ [i], by simp, h1⟩
      · exact ⟨pre, i, [], by simp, o, h1, h2, h3, (hi.has n).1 h4⟩
    · rintro ⟨p1, j, p2, he, o, h1, h2, h3, h4⟩
      rcases split_snoc he with ⟨rfl, rfl, rfl⟩ | ⟨p2', rfl, rfl⟩
      · exact Or.inr ⟨o, h1, h2, h3, (hi.has n).2 h4⟩
      · exact Or.inl ⟨p1, j, p2', rfl, o, h1, h2, h3, h4⟩

/-- An item that declares. -/
theorem inv_decl {pre : List (Item F)} {s s' : St F} {i : Item F} (hi : Inv h pre s) (hvar : i.vars = []) (he : s'.errors = [])
    (hh : ∀ x, s'.has x = true ↔ s.has x = true ∨ x ∈ i.names) (hu : s'.uses = s.uses) (hf : ∀ f ∈ s.facts, f ∈ s'.facts)
    (hg : ∀ x d, s'.get x = some d → s.get x = some d ∨ ((∃ fs, ValueOf h (pre ++ [i]) (.var x) d.2 fs ∧ ∀ f ∈ fs, f ∈ s'.facts) ∧ TypeGiven (pre ++ [i]) x d.1)) :
    Inv h (pre ++ [i]) s' := by
  refine ⟨he, fun x => ?_, fun x d hx => ?_, fun x d hx => ?_, fun k n => ?_⟩
  · rw [hh, hi.has]; simp
  · rcases hg x d hx with h1 | ⟨h1, -⟩
    · obtain ⟨fs, h2, h3⟩ := hi.value x d h1
      exact ⟨fs, value_mono (fun j hj => List.mem_append_left _ hj) h2, fun f hff => hf f (h3 f hff)⟩
    · exact h1
  · rcases hg x d hx with h1 | ⟨-, h1⟩
    · exact typeGiven_mono (fun j hj => List.mem_append_left _ hj) (hi.type x d h1)
    · exact h1
  · rw [hu, hi.uses]
    constructor
    · rintro ⟨p1, j, p2, rfl, h1⟩
      exact ⟨p1, j, p2 ++ [i], by simp, h1⟩
    · rintro ⟨p1, j, p2, he, o, h1, h2, h3, h4⟩
      rcases split_snoc he with ⟨rfl, rfl, rfl⟩ | ⟨p2', rfl, rfl⟩
      · rw [hvar] at h1; simp at h1
      · exact ⟨p1, j, p2', rfl, o, h1, h2, h3, h4⟩

theorem inv_step {pre : List (Item F)} {s : St F} {i : Item F} (hi : Inv h pre s) (hr : i.InRange) :
    ∃ s', visit h s i = .ok s' ∧ ((s'.errors = [] ∧ i.Ok (pre.flatMap Item.names) ∧ Inv h (pre ++ [i]) s') ∨
      (s'.errors ≠ [] ∧ ¬ i.Ok (pre.flatMap Item.names))) := by
  have hfalse : ∀ x, s.has x = false ↔ x ∉ pre.flatMap Item.names := fun x => by rw [← hi.has]; simp
  cases i with
  | const x ty t =>
    simp only [visit, Item.Ok]
    by_cases hx : s.has x = true
    · rw [if_pos hx]
      exact ⟨_, rfl, Or.inr ⟨by simp, fun h1 => h1.1 ((hi.has x).1 hx)⟩⟩
    · rw [if_neg hx]
      by_cases ha : allConstant s.has t = true
      · rw [if_pos ha]
        obtain ⟨r, hr'⟩ := toFacts_ok (h := h) (vars := fun y => (s.get y).map Prod.snd) (has := s.has)
          (fun x hx => by rw [Option.isSome_map, get_isSome]; exact hx) ha
        rw [hr']
        refine ⟨_, rfl, Or.inl ⟨hi.errors, ⟨fun h1 => hx ((hi.has x).2 h1), (allConstant_iff hi.has).1 ha⟩, ?_⟩⟩
        refine inv_decl hi rfl hi.errors (fun y => ?_) rfl (fun f hf => List.mem_append_left _ hf) (fun y d hy => ?_)
        · simp only [St.has, List.any_cons, Bool.or_eq_true, decide_eq_true_eq, Item.names, List.mem_singleton]
          rw [or_comm, eq_comm (a := x)]
        · change St.get { s with vars := (x, if isConstant t then ty else some .entity, r.1) :: s.vars } y = some d at hy
          rw [get_cons] at hy
          split at hy
          · next e =>
            subst e
            simp only [Option.some.injEq] at hy
            subst hy
            right
            constructor
            · obtain ⟨t', fs', h1, h2, h3⟩ := toFacts_unfold (h := h) (D := Declares (pre ++ [.const x ty t])) (S := s.facts)
                (vars := fun y => (s.get y).map Prod.snd) (fun y c hy => by
                  simp only [Option.map_eq_some_iff] at hy
                  obtain ⟨d, hd, rfl⟩ := hy
                  obtain ⟨fs, ⟨t', g1, g2⟩, g3⟩ := hi.value y d hd
                  exact ⟨t', fs, unfolds_mono (fun _ _ => declares_mono (fun j hj => List.mem_append_left _ hj)) g1, g2, g3⟩) (c := r.1) (fs := r.2) hr'
              exact ⟨fs', ⟨t', .var (.const (ty := ty) (by simp)) h1, h2⟩, fun f hf => List.mem_append.2 (h3 f hf)⟩
            · simp only
              split
              · next hc =>
                cases t with
                | const c l => exact Or.inl ⟨c, l, by simp⟩
                | var _ => simp [isConstant] at hc
                | other => simp [isConstant] at hc
                | obj _ _ _ => simp [isConstant] at hc
              · next hc => exact Or.inr (Or.inl ⟨ty, t, by simpa using hc, by simp, rfl⟩)
          · exact Or.inl hy
      · rw [if_neg ha]
        exact ⟨_, rfl, Or.inr ⟨by simp, fun h1 => ha ((allConstant_iff hi.has).2 h1.2)⟩⟩
  | enum ms =>
    simp only [visit, Item.Ok, ← hfalse]
    refine ⟨_, rfl, ?_⟩
    obtain ⟨hr1, hr2⟩ := hr
    rcases members_spec ms s none hi.errors hr1 (by simp) hr2 with ⟨h1, h2, vs, h3, h4⟩ | h1
    · left
      rw [h4]
      obtain ⟨w1, w2, w3⟩ := withMembers_rest ms vs s
      refine ⟨w1.trans hi.errors, ⟨h1, h2, vs, h3⟩, inv_decl hi rfl (w1.trans hi.errors) (fun x => ?_) w2 (fun f hf => by rw [w3]; exact hf) (fun x d hx => ?_)⟩
      · have key := withMembers_get ms vs s x h1 (numbered_length h3) h2
        rw [← get_isSome, ← get_isSome, Option.isSome_iff_exists, Option.isSome_iff_exists]
        constructor
        · rintro ⟨d, hd⟩
          rcases (key d).1 hd with h5 | ⟨k, c, v, h5, -⟩
          · exact Or.inl ⟨d, h5⟩
          · exact Or.inr (List.mem_map.2 ⟨_, List.mem_of_getElem? h5, rfl⟩)
        · rintro (⟨d, hd⟩ | hx)
          · exact ⟨d, (key d).2 (Or.inl hd)⟩
          · obtain ⟨m, hm, rfl⟩ := List.mem_map.1 hx
            obtain ⟨k, hk⟩ := List.mem_iff_getElem?.1 hm
            have hkl : k < vs.length := by rw [numbered_length h3]; exact (List.getElem?_eq_some_iff.1 hk).1
            exact ⟨_, (key _).2 (Or.inr ⟨k, m.2, vs[k], hk, List.getElem?_eq_getElem hkl, rfl⟩)⟩
      · rcases (withMembers_get ms vs s x h1 (numbered_length h3) h2 d).1 hx with h5 | ⟨k, c, v, h5, h6, rfl⟩
        · exact Or.inl h5
        · refine Or.inr ⟨⟨[], ⟨.const (.int v) ⟨0, 0, 0⟩, .var (.enum (by simp) h3 h5 h6) .const, rfl⟩, by simp⟩, Or.inr (Or.inr ⟨ms, by simp, ?_, rfl⟩)⟩
          exact List.mem_map.2 ⟨_, List.mem_of_getElem? h5, rfl⟩
    · exact Or.inr h1
  | set vs =>
    simp only [visit, Item.Ok, ← hi.has]
    refine ⟨_, rfl, ?_⟩
    by_cases ha : ∀ o ∈ vs, s.has o.name = true
    · left
      rw [foldl_mustUse_eq vs s ha]
      obtain ⟨u1, u2, u3⟩ := foldl_use vs s
      exact ⟨u1.trans hi.errors, ha, inv_uses hi rfl (u1.trans hi.errors) u2 u3 rfl⟩
    · exact Or.inr ⟨fun he => ha ((foldl_mustUse_ok vs s hi.errors).1 he), ha⟩
  | fact vs destruct =>
    simp only [visit, Item.Ok, ← hi.has]
    refine ⟨_, rfl, ?_⟩
    obtain ⟨u1, u2, u3⟩ := foldl_use vs s
    cases destruct with
    | true =>
      left
      exact ⟨u1.trans hi.errors, Or.inl rfl, inv_uses hi rfl (u1.trans hi.errors) u2 u3 rfl⟩
    | false =>
      by_cases ha : ∀ o ∈ vs, s.has o.name = true
      · left
        simp only [Bool.false_eq_true, if_false]
        rw [foldl_mustUse_eq vs s ha]
        exact ⟨u1.trans hi.errors, Or.inr ha, inv_uses hi rfl (u1.trans hi.errors) u2 u3 rfl⟩
      · refine Or.inr ⟨fun he => ha ((foldl_mustUse_ok vs s hi.errors).1 (by simpa using he)), ?_⟩
        simpa using ha
  | other vs bs =>
    simp only [visit, Item.Ok, ← hfalse]
    refine ⟨_, rfl, ?_⟩
    obtain ⟨u1, u2, u3⟩ := foldl_use vs s
    obtain ⟨-, b2, b3, b4, b5⟩ := foldl_bind bs (vs.foldl St.use s)
    have hb := b5 (u1.trans hi.errors)
    have hhas : ∀ b, (vs.foldl St.use s).has b = s.has b := fun b => by unfold St.has; rw [u2]
    simp only [hhas] at hb
    by_cases ha : ∀ b ∈ bs, s.has b = false
    · left
      exact ⟨hb.2 ha, ha, inv_uses hi rfl (hb.2 ha) (b2.trans u2) (b4.trans u3) b3⟩
    · exact Or.inr ⟨fun he => ha (hb.1 he), ha⟩

theorem visit_errors {s s' : St F} {i : Item F} (hv : visit h s i = .ok s') : s.errors <+: s'.errors := by
  cases i with
  | const x ty t =>
    simp only [visit] at hv
    split at hv
    · simp only [Outcome.ok.injEq] at hv; subst hv; exact List.prefix_append _ _
    · split at hv
      · cases hr : t.toFacts h fun y => (s.get y).map Prod.snd with
        | ok r => rw [hr] at hv; simp only [Outcome.bind, Outcome.ok.injEq] at hv; subst hv; exact List.prefix_refl _
        | undef => rw [hr] at hv; simp [Outcome.bind] at hv
        | panic => rw [hr] at hv; simp [Outcome.bind] at hv
      · simp only [Outcome.ok.injEq] at hv; subst hv; exact List.prefix_append _ _
  | enum ms => simp only [visit, Outcome.ok.injEq] at hv; subst hv; exact members_errors ms s none
  | set vs => simp only [visit, Outcome.ok.injEq] at hv; subst hv; exact (foldl_mustUse vs s).1
  | fact vs d =>
    simp only [visit, Outcome.ok.injEq] at hv
    subst hv
    cases d with
    | true => simp only [if_true]; rw [(foldl_use vs s).1]; exact List.prefix_refl _
    | false => simpa using (foldl_mustUse vs s).1
  | other vs bs =>
    simp only [visit, Outcome.ok.injEq] at hv
    subst hv
    have := (foldl_bind bs (vs.foldl St.use s)).1
    rw [(foldl_use vs s).1] at this
    exact this

theorem analyse_errors : ∀ {is : List (Item F)} {s s' : St F}, analyse h s is = .ok s' → s.errors <+: s'.errors
  | [], s, s', ha => by simp only [analyse, Outcome.ok.injEq] at ha; subst ha; exact List.prefix_refl _
  | i :: is, s, s', ha => by
    obtain ⟨s1, h1⟩ := visit_ok (h := h) s i
    simp only [analyse, h1, Outcome.bind] at ha
    exact (visit_errors h1).trans (analyse_errors ha)

theorem analyse_inv : ∀ {is pre : List (Item F)} {s : St F}, Inv h pre s → (∀ i ∈ is, i.InRange) →
    ∃ s', analyse h s is = .ok s' ∧ ((s'.errors = [] ∧ (∀ p i q, is = p ++ i :: q → i.Ok ((pre ++ p).flatMap Item.names)) ∧ Inv h (pre ++ is) s') ∨
      (s'.errors ≠ [] ∧ ¬ ∀ p i q, is = p ++ i :: q → i.Ok ((pre ++ p).flatMap Item.names)))
  | [], pre, s, hi, _ => ⟨s, rfl, Or.inl ⟨hi.errors, by simp, by simpa using hi⟩⟩
  | i :: is, pre, s, hi, hr => by
    obtain ⟨s1, h1, h2⟩ := inv_step hi (hr i (by simp))
    simp only [analyse, h1, Outcome.bind]
    rcases h2 with ⟨-, e2, e3⟩ | ⟨e1, e2⟩
    · obtain ⟨s2, g1, g2⟩ := analyse_inv (is := is) e3 fun j hj => hr j (List.mem_cons_of_mem _ hj)
      refine ⟨s2, g1, ?_⟩
      have conv : (∀ p j q, i :: is = p ++ j :: q → j.Ok ((pre ++ p).flatMap Item.names)) ↔
          ∀ p j q, is = p ++ j :: q → j.Ok ((pre ++ [i] ++ p).flatMap Item.names) := by
        constructor
        · intro hh p j q he
          have := hh (i :: p) j q (by rw [he]; rfl)
          simpa using this
        · intro hh p j q he
          cases p with
          | nil =>
            simp only [List.nil_append, List.cons.injEq] at he
            obtain ⟨rfl, -⟩ := he
            simpa using e2
          | cons p0 p =>
            simp only [List.cons_append, List.cons.injEq] at he
            obtain ⟨rfl, he⟩ := he
            have := hh p j q he
            simpa using this
      rw [conv]
      rcases g2 with ⟨k1, k2, k3⟩ | g2
      · exact Or.inl ⟨k1, k2, by simpa using k3⟩
      · exact Or.inr g2
    · obtain ⟨s2, g1⟩ := analyse_ok (h := h) is s1
      refine ⟨s2, g1, Or.inr ⟨fun he => ?_, fun hh => e2 ?_⟩⟩
      · have := analyse_errors g1
        rw [he] at this
        exact e1 (List.prefix_nil.1 this)
      · have := hh [] i is rfl
        simpa using this

end Scallop.Consts

namespace Scallop.Consts

open Ty Ent

variable {F : Type} {h : Hash F}

/-! ## Uniqueness -/

theorem numbered_det {prev : Option Int} {ms : List (String × Option (Const F))} {vs vs' : List Int} (h1 : Numbered prev ms vs)
    (h2 : Numbered prev ms vs') : vs = vs' := by
  induction h1 generalizing vs' with
  | nil => cases h2; rfl
  | given g1 _ _ ih =>
    cases h2 with
    | given _ _ h3 => rw [ih h3]
    | free h3 _ => exact absurd (h3 _ rfl) (by omega)
  | free g1 _ ih =>
    cases h2 with
    | given h3 _ _ => exact absurd (g1 _ rfl) (by omega)
    | free _ h3 => rw [ih h3]

theorem flatMap_inj {α β : Type} {g : α → List β} {l : List α} (hn : (l.flatMap g).Nodup) {a b : α} {x : β} (ha : a ∈ l) (hb : b ∈ l)
    (hxa : x ∈ g a) (hxb : x ∈ g b) : a = b := by
  induction l with
  | nil => simp at ha
  | cons c l ih =>
    rw [List.flatMap_cons, List.nodup_append] at hn
    rcases List.mem_cons.1 ha with e1 | e1 <;> rcases List.mem_cons.1 hb with e2 | e2
    · rw [e1, e2]
    · exact absurd rfl (hn.2.2 x (e1 ▸ hxa) x (List.mem_flatMap.2 ⟨b, e2, hxb⟩))
    · exact absurd rfl (hn.2.2 x (e2 ▸ hxb) x (List.mem_flatMap.2 ⟨a, e1, hxa⟩))
    · exact ih hn.2.1 e1 e2

theorem flatMap_part {α β : Type} {g : α → List β} {l : List α} (hn : (l.flatMap g).Nodup) {a : α} (ha : a ∈ l) : (g a).Nodup := by
  induction l with
  | nil => simp at ha
  | cons c l ih =>
    rw [List.flatMap_cons, List.nodup_append] at hn
    rcases List.mem_cons.1 ha with rfl | ha
    · exact hn.1
    · exact ih hn.2.1 ha

theorem map_getElem?_inj {α β : Type} {g : α → β} {l : List α} (hn : (l.map g).Nodup) {i j : Nat} {a b : α} (ha : l[i]? = some a) (hb : l[j]? = some b)
    (hg : g a = g b) : i = j := by
  obtain ⟨hi, rfl⟩ := List.getElem?_eq_some_iff.1 ha
  obtain ⟨hj, rfl⟩ := List.getElem?_eq_some_iff.1 hb
  have := (List.getElem_inj (xs := l.map g) (i := i) (j := j) (h₀ := by simpa using hi) (h₁ := by simpa using hj) hn).1 (by simpa using hg)
  exact this

theorem map_mem_inj {α β : Type} {g : α → β} {l : List α} (hn : (l.map g).Nodup) {a b : α} (ha : a ∈ l) (hb : b ∈ l) (hg : g a = g b) : a = b := by
  obtain ⟨i, hi⟩ := List.mem_iff_getElem?.1 ha
  obtain ⟨j, hj⟩ := List.mem_iff_getElem?.1 hb
  obtain rfl := map_getElem?_inj hn hi hj hg
  rw [hi] at hj
  exact Option.some.inj hj

theorem declares_unique {items : List (Item F)} (hn : (items.flatMap Item.names).Nodup) {x : String} {t t' : Term F} (h1 : Declares items x t)
    (h2 : Declares items x t') : t = t' := by
  cases h1 with
  | const h1 =>
    cases h2 with
    | const h2 =>
      have := flatMap_inj hn h1 h2 (x := x) (by simp [Item.names]) (by simp [Item.names])
      cases this; rfl
    | enum h2 _ h3 _ =>
      have := flatMap_inj hn h1 h2 (x := x) (by simp [Item.names]) (List.mem_map.2 ⟨_, List.mem_of_getElem? h3, rfl⟩)
      simp at this
  | enum h1 g2 g3 g4 =>
    cases h2 with
    | const h2 =>
      have := flatMap_inj hn h2 h1 (x := x) (by simp [Item.names]) (List.mem_map.2 ⟨_, List.mem_of_getElem? g3, rfl⟩)
      simp at this
    | enum h2 k2 k3 k4 =>
      have := flatMap_inj hn h1 h2 (x := x) (List.mem_map.2 ⟨_, List.mem_of_getElem? g3, rfl⟩) (List.mem_map.2 ⟨_, List.mem_of_getElem? k3, rfl⟩)
      cases this
      obtain rfl := numbered_det g2 k2
      obtain rfl := map_getElem?_inj (g := Prod.fst) (flatMap_part hn h1) g3 k3 rfl
      rw [g4] at k4
      cases k4
      rfl

theorem unfolds_unique {D : String → Term F → Prop} (hD : ∀ x t t', D x t → D x t' → t = t') {t t1 : Term F} (h1 : Unfolds D t t1) :
    ∀ {t2}, Unfolds D t t2 → t1 = t2 := by
  induction h1 using Unfolds.rec (motive_2 := fun ts ts1 _ => ∀ {ts2}, UnfoldsAll D ts ts2 → ts1 = ts2) with
  | const => intro t2 h2; cases h2; rfl
  | var g1 _ ih =>
    intro t2 h2
    cases h2 with
    | var g2 g3 =>
      obtain rfl := hD _ _ _ g1 g2
      exact ih g3
  | obj _ ih =>
    intro t2 h2
    cases h2 with
    | obj g => rw [ih g]
  | nil =>
    rename_i h2
    cases h2; rfl
  | cons _ _ i1 i2 =>
    rename_i h2
    cases h2 with
    | cons g1 g2 => rw [i1 g1, i2 g2]

theorem value_unique {items : List (Item F)} (hn : (items.flatMap Item.names).Nodup) {t : Term F} {c c' : Const F × Ent.Loc}
    {fs fs' : List (CFact F)} (h1 : ValueOf h items t c fs) (h2 : ValueOf h items t c' fs') : c = c' ∧ fs = fs' := by
  obtain ⟨t1, a1, a2⟩ := h1
  obtain ⟨t2, b1, b2⟩ := h2
  obtain rfl := unfolds_unique (D := Declares items) (fun _ _ _ g1 g2 => declares_unique hn g1 g2) a1 b1
  rw [a2] at b2
  simp only [Outcome.ok.injEq, Prod.mk.injEq] at b2
  exact b2

theorem ok_nodup {earlier : List String} {i : Item F} (hi : i.Ok earlier) : i.names.Nodup ∧ ∀ x ∈ i.names, x ∉ earlier := by
  cases i with
  | const x ty t => exact ⟨by simp [Item.names], by simpa [Item.names] using hi.1⟩
  | enum ms => exact ⟨hi.1, hi.2.1⟩
  | set vs => exact ⟨by simp [Item.names], by simp [Item.names]⟩
  | fact vs d => exact ⟨by simp [Item.names], by simp [Item.names]⟩
  | other vs bs => exact ⟨by simp [Item.names], by simp [Item.names]⟩

theorem names_nodup : ∀ {items pre : List (Item F)}, (pre.flatMap Item.names).Nodup →
    (∀ p i q, items = p ++ i :: q → i.Ok ((pre ++ p).flatMap Item.names)) → ((pre ++ items).flatMap Item.names).Nodup
  | [], pre, hp, _ => by simpa using hp
  | i :: is, pre, hp, hok => by
    have h1 := hok [] i is rfl
    rw [List.append_nil] at h1
    obtain ⟨h2, h3⟩ := ok_nodup h1
    have := names_nodup (items := is) (pre := pre ++ [i]) (by
      rw [List.flatMap_append, List.nodup_append]
      refine ⟨hp, by simpa using h2, fun a ha b hb => ?_⟩
      rintro rfl
      exact h3 a (by simpa using hb) ha) (fun p j q he => by
      have := hok (i :: p) j q (by rw [he]; rfl)
      simpa using this)
    simpa using this

theorem occ_place : ∀ {pre p1 post p2 : List (Item F)} {i j : Item F} {o o' : Occ}, pre ++ i :: post = p1 ++ j :: p2 →
    (((pre ++ i :: post).flatMap Item.vars).map Occ.id).Nodup → o ∈ i.vars → o' ∈ j.vars → o.id = o'.id → pre = p1 ∧ o = o'
  | [], [], post, p2, i, j, o, o', he, hn, h1, h2, h3 => by
    simp only [List.nil_append, List.cons.injEq] at he
    obtain ⟨rfl, rfl⟩ := he
    simp only [List.nil_append, List.flatMap_cons, List.map_append, List.nodup_append] at hn
    exact ⟨rfl, map_mem_inj hn.1 h1 h2 h3⟩
  | [], q :: p1, post, p2, i, j, o, o', he, hn, h1, h2, h3 => by
    simp only [List.nil_append, List.cons_append, List.cons.injEq] at he
    obtain ⟨rfl, rfl⟩ := he
    simp only [List.nil_append, List.flatMap_cons, List.map_append, List.nodup_append] at hn
    refine absurd rfl (hn.2.2 o.id (List.mem_map.2 ⟨o, h1, rfl⟩) o.id ?_)
    rw [h3]
    exact List.mem_map.2 ⟨o', List.mem_flatMap.2 ⟨j, by simp, h2⟩, rfl⟩
  | q :: pre, [], post, p2, i, j, o, o', he, hn, h1, h2, h3 => by
    simp only [List.nil_append, List.cons_append, List.cons.injEq] at he
    obtain ⟨rfl, rfl⟩ := he
    simp only [List.cons_append, List.flatMap_cons, List.map_append, List.nodup_append] at hn
    refine absurd rfl (hn.2.2 o'.id (List.mem_map.2 ⟨o', h2, rfl⟩) o'.id ?_)
    rw [← h3]
    exact List.mem_map.2 ⟨o, by simp [h1], rfl⟩
  | q :: pre, q' :: p1, post, p2, i, j, o, o', he, hn, h1, h2, h3 => by
    simp only [List.cons_append, List.cons.injEq] at he
    obtain ⟨rfl, he⟩ := he
    simp only [List.cons_append, List.flatMap_cons, List.map_append, List.nodup_append] at hn
    have := occ_place he hn.2.1 h1 h2 h3
    exact ⟨by rw [this.1], this.2⟩

end Scallop.Consts
