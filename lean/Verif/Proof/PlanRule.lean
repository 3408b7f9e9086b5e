import Verif.Proof.PlanHead
import Verif.Proof.PlanSearch

/-!
# From the body of a rule to its plan
-/

namespace Scallop.Plan

open Scallop.Back Scallop.Ram

variable {F : Type}

/-! ## The literals by kind -/

theorem addLits_spec {nb : String → Option Nat} : ∀ {body : List (Lit String F Reduce)} {c c' : Ctx F}, (∀ a ∈ posOf body, nb a.predicate = none) →
    c.numBounded = nb → c.addLits body = some c' →
    c'.pos = c.pos ++ posOf body ∧ c'.neg = c.neg ++ negOf body ∧ c'.assigns = c.assigns ++ assignsOf body ∧ c'.cons = c.cons ++ consOf body ∧
      c'.reduces = c.reduces ++ reducesOf body ∧ c'.fps = c.fps
  | [], c, c', _, _, h => by
    simp only [Ctx.addLits, Option.some.injEq] at h
    subst h
    simp [posOf, negOf, assignsOf, consOf, reducesOf]
  | l :: body, c, c', hnb, hc, h => by
    simp only [Ctx.addLits, Option.bind_eq_some_iff] at h
    obtain ⟨c1, h1, h⟩ := h
    have hnb' : ∀ a ∈ posOf body, nb a.predicate = none := by
      intro a ha
      apply hnb
      simp only [posOf, List.mem_filterMap, List.mem_cons] at ha ⊢
      obtain ⟨l', h2, h3⟩ := ha
      exact ⟨l', Or.inr h2, h3⟩
    cases l with
    | atom a =>
      have hna : nb a.predicate = none := hnb a (by simp [posOf])
      simp only [Ctx.addLit, hc, hna, Option.isSome_none, Bool.false_eq_true, if_false, Option.some.injEq] at h1
      subst h1
      obtain ⟨e1, e2, e3, e4, e5, e6⟩ := addLits_spec hnb' rfl h
      refine ⟨?_, ?_, ?_, ?_, ?_, e6⟩
      · rw [e1]; simp [posOf]
      · rw [e2]; simp [negOf]
      · rw [e3]; simp [assignsOf]
      · rw [e4]; simp [consOf]
      · rw [e5]; simp [reducesOf]
    | ff => simp [Ctx.addLit] at h1
    | neg _ | assign _ _ | cbin _ _ _ | cnot _ | reduce _ _ | tt =>
      simp only [Ctx.addLit, Option.some.injEq] at h1
      subst h1
      obtain ⟨e1, e2, e3, e4, e5, e6⟩ := addLits_spec hnb' (by exact hc) h
      refine ⟨?_, ?_, ?_, ?_, ?_, e6⟩
      · rw [e1]; simp [posOf]
      · rw [e2]; simp [negOf]
      · rw [e3]; simp [assignsOf]
      · rw [e4]; simp [consOf]
      · rw [e5]; simp [reducesOf]

theorem addLits_some {body : List (Lit String F Reduce)} (h : Lit.ff ∉ body) : ∀ c : Ctx F, ∃ c', c.addLits body = some c' := by
  induction body with
  | nil => exact fun c => ⟨c, rfl⟩
  | cons l body ih =>
    intro c
    simp only [List.mem_cons, not_or] at h
    rw [Ctx.addLits]
    have : ∃ c1, c.addLit l = some c1 := by
      cases l with
      | ff => exact absurd rfl h.1
      | _ => exact ⟨_, rfl⟩
    obtain ⟨c1, h1⟩ := this
    obtain ⟨c2, h2⟩ := ih h.2 c1
    exact ⟨c2, by rw [h1, Option.bind_some, h2]⟩

/-- The context holds the literals of the body. -/
structure CtxOf (body : List (Lit String F Reduce)) (c : Ctx F) : Prop where
  pos : c.pos = posOf body
  neg : c.neg = negOf body
  assigns : c.assigns = assignsOf body
  cons : c.cons = consOf body
  reduces : c.reduces = reducesOf body
  fps : c.fps = []

theorem fromRule_spec {nb : String → Option Nat} {body : List (Lit String F Reduce)} (h1 : ∀ a ∈ posOf body, nb a.predicate = none)
    (h2 : Lit.ff ∉ body) : ∃ c, Ctx.fromRule nb body = some c ∧ CtxOf body c := by
  obtain ⟨c, hc⟩ := addLits_some h2 ({ numBounded := nb } : Ctx F)
  obtain ⟨e1, e2, e3, e4, e5, e6⟩ := addLits_spec h1 rfl hc
  exact ⟨c, hc, ⟨by simpa using e1, by simpa using e2, by simpa using e3, by simpa using e4, by simpa using e5, by simpa using e6⟩⟩

theorem lits_iff {W : World F} {σ : Asg F} {body : List (Lit String F Reduce)} (Q : Lit String F Reduce → Prop) (hff : Lit.ff ∉ body) :
    (∀ l ∈ body, Q l → LitHolds W σ l) ↔
      (∀ a ∈ posOf body, Q (.atom a) → W.I a.predicate (flat (a.args.map (Term.val σ)))) ∧
      (∀ a ∈ negOf body, Q (.neg a) → ¬ W.I a.predicate (flat (a.args.map (Term.val σ)))) ∧
      (∀ a ∈ assignsOf body, Q (.assign a.1 a.2) → a.2.val W.X σ = .ok (σ a.1)) ∧
      (∀ op a b, Con.bin op a b ∈ consOf body → Q (.cbin op a b) → (Con.bin op a b).Holds W.X σ) ∧
      (∀ a, Con.not a ∈ consOf body → Q (.cnot a) → (Con.not a).Holds W.X σ) ∧
      (∀ r vs, Lit.reduce r vs ∈ body → Q (.reduce r vs) → ReduceHolds W σ r) := by
  constructor
  · intro h
    refine ⟨?_, ?_, ?_, ?_, ?_, ?_⟩
    · intro a ha
      simp only [posOf, List.mem_filterMap] at ha
      obtain ⟨l, hl, e⟩ := ha
      cases l <;> simp at e
      subst e
      exact h _ hl
    · intro a ha
      simp only [negOf, List.mem_filterMap] at ha
      obtain ⟨l, hl, e⟩ := ha
      cases l <;> simp at e
      subst e
      exact h _ hl
    · intro a ha
      simp only [assignsOf, List.mem_filterMap] at ha
      obtain ⟨l, hl, e⟩ := ha
      cases l <;> simp at e
      subst e
      exact h _ hl
    · intro op a b ha
      simp only [consOf, List.mem_filterMap] at ha
      obtain ⟨l, hl, e⟩ := ha
      cases l <;> simp at e
      obtain ⟨rfl, rfl, rfl⟩ := e
      exact h _ hl
    · intro a ha
      simp only [consOf, List.mem_filterMap] at ha
      obtain ⟨l, hl, e⟩ := ha
      cases l <;> simp at e
      subst e
      exact h _ hl
    · intro r vs hl
      exact h _ hl
  · rintro ⟨h1, h2, h3, h4, h5, h6⟩ l hl hQ
    cases l with
    | atom a => exact h1 a (List.mem_filterMap.mpr ⟨_, hl, rfl⟩) hQ
    | neg a => exact h2 a (List.mem_filterMap.mpr ⟨_, hl, rfl⟩) hQ
    | assign x e => exact h3 (x, e) (List.mem_filterMap.mpr ⟨_, hl, rfl⟩) hQ
    | cbin op a b => exact h4 op a b (List.mem_filterMap.mpr ⟨_, hl, rfl⟩) hQ
    | cnot a => exact h5 a (List.mem_filterMap.mpr ⟨_, hl, rfl⟩) hQ
    | reduce r vs => exact h6 r vs hl hQ
    | tt => trivial
    | ff => exact absurd hl hff

/-! ## Fitting plans -/

/-- More needed variables only help. -/
theorem Fits.mono {W : World F} {E : Env F} : ∀ {d : Plan F} {need need' : String → Prop} {dup}, (∀ x ∈ d.bounded, need x → need' x) →
    Fits W E d need dup → Fits W E d need' dup
  | .unit, _, _, _, _, _ => trivial
  | .reduce _, _, _, _, _, h => h
  | .ground _, _, _, _, _, h => h
  | .project b d as, need, need', dup, hn, ⟨h1, h2, h3, h4, h5⟩ => by
    refine ⟨h1, h2, h3, ?_, h5.mono ?_⟩
    · intro a ha
      exact (h4 a ha).imp_left (hn a.1 ((h1 a.1).mpr (Or.inr ⟨a, ha, rfl⟩)))
    · rintro x hx (h | ⟨a, ha, hna, hx'⟩)
      · exact Or.inl (hn x ((h1 x).mpr (Or.inl hx)) h)
      · exact Or.inr ⟨a, ha, hn a.1 ((h1 a.1).mpr (Or.inr ⟨a, ha, rfl⟩)) hna, hx'⟩
  | .filter b d cs, need, need', dup, hn, ⟨h1, h2, h3, h4⟩ => by
    refine ⟨h1, h2, h3, h4.mono ?_⟩
    rintro x hx (h | h)
    · exact Or.inl ⟨hn x h.2 h.1, h.2⟩
    · exact Or.inr h
  | .join d1 d2, need, need', dup, hn, ⟨h1, h2, h3⟩ => by
    refine ⟨h1, h2.mono ?_, h3.mono ?_⟩
    · rintro x hx h
      exact h.imp_left (hn x (List.mem_append.mpr (Or.inl hx)))
    · rintro x hx h
      exact h.imp_left (hn x (List.mem_append.mpr (Or.inr hx)))
  | .antijoin d1 d2, need, need', dup, hn, ⟨h1, h2, h3⟩ => by
    refine ⟨h1, h2.mono ?_, h3⟩
    rintro x hx h
    exact h.imp_left (hn x hx)
  | .fpGround _ _, _, _, _, _, h => h
  | .fpConstraint _ _ _, _, _, _, _, h => h
  | .fpJoin _ _ _, _, _, _, _, h => h

/-! ## Aggregations -/

theorem reduces_spec {W : World F} {E : Env F} {all : List Reduce}
    (hred : ∀ r ∈ all, (∀ t, W.Red r.aggregator r.body (reduceGroupBy r) t → ∃ σ, t = evalV σ (reduceTuple r)) ∧
      ∀ x ∈ leaves (reduceTuple r), x ∈ r.vars)
    (hown : ∀ pre r post, all = pre ++ r :: post → pre ≠ [] → ∃ x ∈ r.vars, ∀ r' ∈ pre, x ∉ r'.vars) :
    ∀ (rs pre : List Reduce) (d : Plan F), all = pre ++ rs → pre ≠ [] → (∀ x, x ∈ d.bounded ↔ ∃ r ∈ pre, x ∈ r.vars) →
      (∀ σ, Sat W d σ ↔ ∀ r ∈ pre, ReduceHolds W σ r) → (∀ need dup, Fits W E d need dup) →
      (∀ x, x ∈ (rs.foldl (fun d r => Plan.join d (.reduce r)) d).bounded ↔ ∃ r ∈ all, x ∈ r.vars) ∧
      (∀ σ, Sat W (rs.foldl (fun d r => Plan.join d (.reduce r)) d) σ ↔ ∀ r ∈ all, ReduceHolds W σ r) ∧
      (∀ need dup, Fits W E (rs.foldl (fun d r => Plan.join d (.reduce r)) d) need dup)
  | [], pre, d, he, _, hb, hs, hf => by
    rw [List.append_nil] at he
    subst he
    exact ⟨hb, hs, hf⟩
  | r :: rs, pre, d, he, hne, hb, hs, hf => by
    rw [List.foldl_cons]
    refine reduces_spec hred hown rs (pre ++ [r]) (.join d (.reduce r)) (by rw [he]; simp) (by simp) ?_ ?_ ?_
    · intro x
      simp only [Plan.bounded, List.mem_append, hb, List.mem_singleton]
      constructor
      · rintro (⟨r', h, h'⟩ | h)
        · exact ⟨r', Or.inl h, h'⟩
        · exact ⟨r, Or.inr rfl, h⟩
      · rintro ⟨r', h | rfl, h'⟩
        · exact Or.inl ⟨r', h, h'⟩
        · exact Or.inr h'
    · intro σ
      simp only [Sat, hs, List.mem_append, List.mem_singleton]
      constructor
      · rintro ⟨h1, h2⟩ r' (h | rfl)
        · exact h1 r' h
        · exact h2
      · intro h
        exact ⟨fun r' hr => h r' (Or.inl hr), h r (Or.inr rfl)⟩
    · intro need dup
      refine ⟨?_, hf _ _, hred r (by rw [he]; simp)⟩
      intro hss
      exfalso
      obtain ⟨x, hx, hno⟩ := hown pre r rs he hne
      obtain ⟨r', hr', hx'⟩ := (hb x).mp ((sameSet_iff.mp hss x).mpr hx)
      exact hno r' hr' hx'

/-! ## The construction of plans -/

/-- A plan under construction: the atoms still to be joined, the assignments and constraints not yet applied, the plan. -/
inductive Built (c : Ctx F) : List (Atom String F) → List (String × AExpr String F) → List (Con F) → Plan F → Prop
  | unit {R} : R.Perm c.pos → c.reduces = [] → Built c R c.assigns c.cons .unit
  | ground {a R} : (a :: R).Perm c.pos → c.reduces = [] → Built c R c.assigns c.cons (.ground a)
  | reduces {R r rs} : R.Perm c.pos → c.reduces = r :: rs →
      Built c R c.assigns c.cons (rs.foldl (fun d r => .join d (.reduce r)) (.reduce r))
  | join {a R as cs d} : Built c (a :: R) as cs d → Built c R as cs (.join d (.ground a))
  | project {R as cs d l} : Built c R as cs d → as.filter (assignApplies d.bounded) = l →
      Built c R (as.filter (fun a => !assignApplies d.bounded a)) cs (.project (d.bounded ++ l.map Prod.fst) d l)
  | filter {R as cs d l} : Built c R as cs d → cs.filter (fun c => c.vars.all (fun v => decide (v ∈ d.bounded))) = l →
      Built c R as (cs.filter (fun c => !(c.vars.all (fun v => decide (v ∈ d.bounded))))) (.filter d.bounded d l)

theorem assignApplies_iff {b : List String} {a : String × AExpr String F} :
    assignApplies b a = true ↔ a.1 ∉ b ∧ isNew a.2 = false ∧ ∀ x ∈ a.2.vars, x ∈ b := by
  simp [assignApplies, and_assoc]

variable {W : World F} {E : Env F} {body : List (Lit String F Reduce)} {c : Ctx F}

theorem Built.posSub (hc : CtxOf body c) {R as cs d} (h : Built c R as cs d) : ∀ a ∈ R, a ∈ posOf body := by
  induction h with
  | unit h _ => intro a ha; rw [← hc.pos]; exact h.mem_iff.mp ha
  | ground h _ => intro a ha; rw [← hc.pos]; exact h.mem_iff.mp (List.mem_cons_of_mem _ ha)
  | reduces h _ => intro a ha; rw [← hc.pos]; exact h.mem_iff.mp ha
  | join _ ih => intro a ha; exact ih a (List.mem_cons_of_mem _ ha)
  | project _ _ ih => exact ih
  | filter _ _ ih => exact ih

theorem Built.assignsSub (hc : CtxOf body c) {R as cs d} (h : Built c R as cs d) : as.Sublist (assignsOf body) := by
  induction h with
  | unit _ _ => rw [hc.assigns]
  | ground _ _ => rw [hc.assigns]
  | reduces _ _ => rw [hc.assigns]
  | join _ ih => exact ih
  | project _ _ ih => exact List.filter_sublist.trans ih
  | filter _ _ ih => exact ih

theorem Built.consSub (hc : CtxOf body c) {R as cs d} (h : Built c R as cs d) : cs.Sublist (consOf body) := by
  induction h with
  | unit _ _ => rw [hc.cons]
  | ground _ _ => rw [hc.cons]
  | reduces _ _ => rw [hc.cons]
  | join _ ih => exact ih
  | project _ _ ih => exact ih
  | filter _ _ ih => exact List.filter_sublist.trans ih

/-- Aggregations of the first fringe. -/
theorem reduces_first (hc : CtxOf body c) {nb head} (ok : RuleOk W E nb body head) {r rs} (h : c.reduces = r :: rs) :
    (∀ x, x ∈ (rs.foldl (fun d r => Plan.join d (.reduce r)) (.reduce r : Plan F)).bounded ↔ ∃ r ∈ reducesOf body, x ∈ r.vars) ∧
      (∀ σ, Sat W (rs.foldl (fun d r => Plan.join d (.reduce r)) (.reduce r : Plan F)) σ ↔ ∀ r ∈ reducesOf body, ReduceHolds W σ r) ∧
      (∀ need dup, Fits W E (rs.foldl (fun d r => Plan.join d (.reduce r)) (.reduce r)) need dup) := by
  have he : reducesOf body = [r] ++ rs := by rw [← hc.reduces, h]; rfl
  refine reduces_spec ok.red ok.redOwn rs [r] (.reduce r) he (by simp) (by simp [Plan.bounded]) (by simp [Sat, ReduceHolds]) ?_
  intro need dup
  exact ok.red r (by rw [he]; simp)

/-- Every variable of the plan gets its value without the variables not in the plan. -/
theorem Built.bound (hc : CtxOf body c) {nb head} (ok : RuleOk W E nb body head) {R as cs d} (h : Built c R as cs d) (P : String → Prop) :
    (∀ y ∈ d.bounded, ¬ P y) → ∀ x ∈ d.bounded, Bound body P x := by
  induction h with
  | unit _ _ => intro _ x hx; simp [Plan.bounded] at hx
  | @ground a R h _ => intro hP x hx; exact .atom (by rw [← hc.pos]; exact h.mem_iff.mp List.mem_cons_self) hx hP
  | reduces _ h =>
    intro hP x hx
    have hb := (reduces_first hc ok h).1
    obtain ⟨r', hr', hx'⟩ := (hb x).mp hx
    exact .reduce hr' hx' (fun y hy => hP y ((hb y).mpr ⟨r', hr', hy⟩))
  | @join a R as cs d h ih =>
    intro hP x hx
    simp only [Plan.bounded, List.mem_append] at hP hx
    rcases hx with hx | hx
    · exact ih (fun y hy => hP y (Or.inl hy)) x hx
    · exact .atom (h.posSub hc a List.mem_cons_self) hx (fun y hy => hP y (Or.inr hy))
  | @project R as cs d l h hl ih =>
    intro hP x hx
    simp only [Plan.bounded, List.mem_append] at hP hx
    have ih := ih (fun y hy => hP y (Or.inl hy))
    rcases hx with hx | hx
    · exact ih x hx
    · obtain ⟨a, ha, rfl⟩ := List.mem_map.mp hx
      have ha' := ha
      rw [← hl, List.mem_filter, assignApplies_iff] at ha'
      exact .assign ((h.assignsSub hc).subset ha'.1) ha'.2.2.1 (hP a.1 (Or.inr (List.mem_map.mpr ⟨a, ha, rfl⟩)))
        (fun y hy => ih y (ha'.2.2.2 y hy))
  | filter _ _ ih => exact ih

/-- An applied assignment is computable. -/
theorem Built.live (hc : CtxOf body c) {nb head} (ok : RuleOk W E nb body head) {R as cs d} (h : Built c R as cs d) {a : String × AExpr String F}
    (ha : assignApplies d.bounded a = true) : Live body a.1 a.2 := by
  rw [assignApplies_iff] at ha
  refine ⟨ha.2.1, fun y hy => ?_⟩
  refine h.bound hc ok _ ?_ y (ha.2.2 y hy)
  rintro z hz rfl
  exact ha.1 hz

theorem once_ne {nb head} (ok : RuleOk W E nb body head) {a b : String × AExpr String F} (ha : a ∈ assignsOf body) (hb : b ∈ assignsOf body)
    (hne : a ≠ b) (la : Live body a.1 a.2) (lb : Live body b.1 b.2) : a.1 ≠ b.1 := by
  have hsym : ∀ a b : String × AExpr String F, (Live body a.1 a.2 → Live body b.1 b.2 → a.1 ≠ b.1) → (Live body b.1 b.2 → Live body a.1 a.2 → b.1 ≠ a.1) :=
    fun a b h l1 l2 e => h l2 l1 e.symm
  have := ok.once
  rw [List.pairwise_iff_getElem] at this
  obtain ⟨i, hi, ei⟩ := List.getElem_of_mem ha
  obtain ⟨j, hj, ej⟩ := List.getElem_of_mem hb
  rcases Nat.lt_trichotomy i j with h | h | h
  · have := this i j hi hj h
    rw [ei, ej] at this
    exact this la lb
  · subst h
    exact absurd (ei.symm.trans ej) hne
  · have := this j i hj hi h
    rw [ei, ej] at this
    exact fun e => this lb la e.symm

/-- A pending assignment that is the only source of its variable: the variable is not in the plan. -/
theorem Built.sole (hc : CtxOf body c) {nb head} (ok : RuleOk W E nb body head) {R as cs d} (h : Built c R as cs d) :
    ∀ a ∈ as, Sole body a.1 a.2 → a.1 ∉ d.bounded := by
  induction h with
  | unit _ _ => intro a _ _ hx; simp [Plan.bounded] at hx
  | @ground b R h _ => intro a _ hs hx; exact hs.2.1 b (by rw [← hc.pos]; exact h.mem_iff.mp List.mem_cons_self) hx
  | reduces _ h =>
    intro a _ hs hx
    obtain ⟨r', hr', hx'⟩ := ((reduces_first hc ok h).1 _).mp hx
    exact hs.2.2 r' hr' hx'
  | @join b R as cs d h ih =>
    intro a ha hs hx
    simp only [Plan.bounded, List.mem_append] at hx
    rcases hx with hx | hx
    · exact ih a ha hs hx
    · exact hs.2.1 b (h.posSub hc b List.mem_cons_self) hx
  | @project R as cs d l h hl ih =>
    intro a ha hs hx
    simp only [Plan.bounded, List.mem_append] at hx
    rw [List.mem_filter, Bool.not_eq_true'] at ha
    rcases hx with hx | hx
    · exact ih a ha.1 hs hx
    · obtain ⟨b, hb, e⟩ := List.mem_map.mp hx
      rw [← hl, List.mem_filter] at hb
      have hne : b ≠ a := by
        rintro rfl
        rw [ha.2] at hb
        cases hb.2
      exact once_ne ok ((h.assignsSub hc).subset hb.1) ((h.assignsSub hc).subset ha.1) hne (h.live hc ok hb.2) hs.1 e
  | filter _ _ ih => exact ih

/-- A variable for a new entity is not in the plan. -/
theorem Built.new (hc : CtxOf body c) {nb head} (ok : RuleOk W E nb body head) {R as cs d} (h : Built c R as cs d) :
    ∀ a ∈ assignsOf body, isNew a.2 = true → a.1 ∉ d.bounded :=
  fun a ha hn hx => ok.newFresh a ha hn (h.bound hc ok _ (fun _ _ h => h) _ hx)

/-- What has been applied has its variables in the plan. -/
theorem Built.applied (hc : CtxOf body c) {nb head} (ok : RuleOk W E nb body head) {R as cs d} (h : Built c R as cs d) :
    (∀ a ∈ posOf body, a ∈ R ∨ ∀ x ∈ atomVars a, x ∈ d.bounded) ∧ (∀ r ∈ reducesOf body, ∀ x ∈ r.vars, x ∈ d.bounded) ∧
      (∀ a ∈ assignsOf body, a ∈ as ∨ (a.1 ∈ d.bounded ∧ ∀ x ∈ a.2.vars, x ∈ d.bounded)) ∧
      (∀ k ∈ consOf body, k ∈ cs ∨ ∀ x ∈ k.vars, x ∈ d.bounded) := by
  induction h with
  | unit h hr =>
    refine ⟨fun a ha => Or.inl (h.mem_iff.mpr (by rwa [hc.pos])), ?_, fun a ha => Or.inl (by rwa [hc.assigns]), fun k hk => Or.inl (by rwa [hc.cons])⟩
    intro r hr'
    rw [← hc.reduces, hr] at hr'
    cases hr'
  | @ground b R h hr =>
    refine ⟨fun a ha => ?_, ?_, fun a ha => Or.inl (by rwa [hc.assigns]), fun k hk => Or.inl (by rwa [hc.cons])⟩
    · rw [← hc.pos] at ha
      rcases List.mem_cons.mp (h.mem_iff.mpr ha) with rfl | ha
      · exact Or.inr (fun x hx => hx)
      · exact Or.inl ha
    · intro r hr'
      rw [← hc.reduces, hr] at hr'
      cases hr'
  | reduces h hr =>
    refine ⟨fun a ha => Or.inl (h.mem_iff.mpr (by rwa [hc.pos])), ?_, fun a ha => Or.inl (by rwa [hc.assigns]), fun k hk => Or.inl (by rwa [hc.cons])⟩
    intro r' hr' x hx
    exact ((reduces_first hc ok hr).1 x).mpr ⟨r', hr', hx⟩
  | @join b R as cs d h ih =>
    obtain ⟨h1, h2, h3, h4⟩ := ih
    simp only [Plan.bounded, List.mem_append]
    refine ⟨fun a ha => ?_, fun r hr x hx => Or.inl (h2 r hr x hx), fun a ha => ?_, fun k hk => ?_⟩
    · rcases h1 a ha with h | h
      · rcases List.mem_cons.mp h with rfl | h
        · exact Or.inr (fun x hx => Or.inr hx)
        · exact Or.inl h
      · exact Or.inr (fun x hx => Or.inl (h x hx))
    · exact (h3 a ha).imp_right (fun h => ⟨Or.inl h.1, fun x hx => Or.inl (h.2 x hx)⟩)
    · exact (h4 k hk).imp_right (fun h x hx => Or.inl (h x hx))
  | @project R as cs d l h hl ih =>
    obtain ⟨h1, h2, h3, h4⟩ := ih
    simp only [Plan.bounded, List.mem_append]
    refine ⟨fun a ha => (h1 a ha).imp_right (fun h x hx => Or.inl (h x hx)), fun r hr x hx => Or.inl (h2 r hr x hx), fun a ha => ?_,
      fun k hk => (h4 k hk).imp_right (fun h x hx => Or.inl (h x hx))⟩
    rcases h3 a ha with h | h
    · by_cases hap : assignApplies d.bounded a = true
      · have hal : a ∈ l := by rw [← hl, List.mem_filter]; exact ⟨h, hap⟩
        exact Or.inr ⟨Or.inr (List.mem_map.mpr ⟨a, hal, rfl⟩), fun x hx => Or.inl ((assignApplies_iff.mp hap).2.2 x hx)⟩
      · exact Or.inl (by rw [List.mem_filter]; exact ⟨h, by simpa using hap⟩)
    · exact Or.inr ⟨Or.inl h.1, fun x hx => Or.inl (h.2 x hx)⟩
  | @filter R as cs d l h hl ih =>
    obtain ⟨h1, h2, h3, h4⟩ := ih
    refine ⟨h1, h2, h3, fun k hk => ?_⟩
    rcases h4 k hk with h | h
    · by_cases hap : k.vars.all (fun v => decide (v ∈ d.bounded)) = true
      · exact Or.inr (show ∀ x ∈ k.vars, x ∈ d.bounded by simpa using hap)
      · exact Or.inl (by rw [List.mem_filter]; exact ⟨h, by simpa using hap⟩)
    · exact Or.inr h

/-- If all literals are true, the plan is satisfied. -/
theorem Built.complete (hc : CtxOf body c) {nb head} (ok : RuleOk W E nb body head) {R as cs d} (h : Built c R as cs d) {σ : Asg F}
    (hpos : ∀ a ∈ posOf body, W.I a.predicate (flat (a.args.map (Term.val σ)))) (hred : ∀ r ∈ reducesOf body, ReduceHolds W σ r)
    (has : ∀ a ∈ assignsOf body, a.2.val W.X σ = .ok (σ a.1)) (hcs : ∀ k ∈ consOf body, k.Holds W.X σ) : Sat W d σ := by
  induction h with
  | unit _ _ => trivial
  | ground h _ => exact hpos _ (by rw [← hc.pos]; exact h.mem_iff.mp List.mem_cons_self)
  | reduces _ h => exact ((reduces_first hc ok h).2.1 σ).mpr hred
  | join h ih => exact ⟨ih, hpos _ (h.posSub hc _ List.mem_cons_self)⟩
  | project h hl ih =>
    refine ⟨ih, fun a ha => has a ?_⟩
    rw [← hl] at ha
    exact (h.assignsSub hc).subset (List.mem_filter.mp ha).1
  | filter h hl ih =>
    refine ⟨σ, fun _ _ => rfl, ih, fun k hk => hcs k ?_⟩
    rw [← hl] at hk
    exact (h.consSub hc).subset (List.mem_filter.mp hk).1

/-- If the plan is satisfied, so are the literals applied. -/
theorem Built.sound (hc : CtxOf body c) {nb head} (ok : RuleOk W E nb body head) {R as cs d} (h : Built c R as cs d) : ∀ {σ : Asg F}, Sat W d σ →
    (∀ a ∈ posOf body, a ∈ R ∨ W.I a.predicate (flat (a.args.map (Term.val σ)))) ∧ (∀ r ∈ reducesOf body, ReduceHolds W σ r) ∧
      (∀ a ∈ assignsOf body, a ∈ as ∨ a.2.val W.X σ = .ok (σ a.1)) ∧ (∀ k ∈ consOf body, k ∈ cs ∨ k.Holds W.X σ) := by
  induction h with
  | unit h hr =>
    intro σ _
    refine ⟨fun a ha => Or.inl (h.mem_iff.mpr (by rwa [hc.pos])), ?_, fun a ha => Or.inl (by rwa [hc.assigns]), fun k hk => Or.inl (by rwa [hc.cons])⟩
    intro r hr'
    rw [← hc.reduces, hr] at hr'
    cases hr'
  | @ground b R h hr =>
    intro σ hσ
    refine ⟨fun a ha => ?_, ?_, fun a ha => Or.inl (by rwa [hc.assigns]), fun k hk => Or.inl (by rwa [hc.cons])⟩
    · rw [← hc.pos] at ha
      rcases List.mem_cons.mp (h.mem_iff.mpr ha) with rfl | ha
      · exact Or.inr hσ
      · exact Or.inl ha
    · intro r hr'
      rw [← hc.reduces, hr] at hr'
      cases hr'
  | reduces h hr =>
    intro σ hσ
    exact ⟨fun a ha => Or.inl (h.mem_iff.mpr (by rwa [hc.pos])), ((reduces_first hc ok hr).2.1 σ).mp hσ, fun a ha => Or.inl (by rwa [hc.assigns]),
      fun k hk => Or.inl (by rwa [hc.cons])⟩
  | @join b R as cs d h ih =>
    intro σ hσ
    obtain ⟨h1, h2, h3, h4⟩ := ih hσ.1
    refine ⟨fun a ha => ?_, h2, h3, h4⟩
    rcases h1 a ha with h | h
    · rcases List.mem_cons.mp h with rfl | h
      · exact Or.inr hσ.2
      · exact Or.inl h
    · exact Or.inr h
  | @project R as cs d l h hl ih =>
    intro σ hσ
    obtain ⟨h1, h2, h3, h4⟩ := ih hσ.1
    refine ⟨h1, h2, fun a ha => ?_, h4⟩
    rcases h3 a ha with h | h
    · by_cases hap : assignApplies d.bounded a = true
      · exact Or.inr (hσ.2 a (by rw [← hl, List.mem_filter]; exact ⟨h, hap⟩))
      · exact Or.inl (by rw [List.mem_filter]; exact ⟨h, by simpa using hap⟩)
    · exact Or.inr h
  | @filter R as cs d l h hl ih =>
    rintro σ ⟨τ, hag, hτ, hcs⟩
    obtain ⟨h1, h2, h3, h4⟩ := ih hτ
    obtain ⟨b1, b2, b3, b4⟩ := h.applied hc ok
    refine ⟨fun a ha => ?_, fun r hr => ?_, fun a ha => ?_, fun k hk => ?_⟩
    · rcases b1 a ha with hb | hb
      · exact Or.inl hb
      · rw [atom_args_congr (σ := σ) (τ := τ) (fun x hx => hag x (hb x hx))]
        exact h1 a ha
    · unfold ReduceHolds
      rw [evalV_congr (σ := σ) (τ := τ) _ (fun x hx => hag x (b2 r hr x ((ok.red r hr).2 x hx)))]
      exact h2 r hr
    · rcases b3 a ha with hb | hb
      · exact Or.inl hb
      · rw [aexpr_congr (σ := σ) (τ := τ) (fun x hx => hag x (hb.2 x hx)), hag a.1 hb.1]
        exact h3 a ha
    · by_cases hap : k.vars.all (fun v => decide (v ∈ d.bounded)) = true
      · have hap' : ∀ x ∈ k.vars, x ∈ d.bounded := by simpa using hap
        right
        rw [con_congr (σ := σ) (τ := τ) (fun x hx => hag x (hap' x hx))]
        rcases h4 k hk with h | h
        · exact hcs k (by rw [← hl, List.mem_filter]; exact ⟨h, hap⟩)
        · exact h
      · rcases b4 k hk with hb | hb
        · exact Or.inl (by rw [List.mem_filter]; exact ⟨hb, by simpa using hap⟩)
        · exact absurd (by simpa using hb) hap

/-! ## The plan fits -/

/-- The variables still to be looked at, at a stage of the construction. -/
inductive UsedIn (body : List (Lit String F Reduce)) (head : List String) (at' : List (Atom String F)) (as : List (String × AExpr String F))
    (cs : List (Con F)) : String → Prop
  | head {x} : x ∈ head → UsedIn body head at' as cs x
  | con {c x} : c ∈ cs → x ∈ c.vars → UsedIn body head at' as cs x
  | atom {a x} : a ∈ at' → x ∈ atomVars a → UsedIn body head at' as cs x
  | assign {y e x} : (y, e) ∈ as → Sole body y e → UsedIn body head at' as cs y → x ∈ e.vars → UsedIn body head at' as cs x
  | new {y e x} : (y, e) ∈ assignsOf body → isNew e = true → UsedIn body head at' as cs y → x ∈ e.vars → UsedIn body head at' as cs x

theorem Built.usedIn (hc : CtxOf body c) {nb head} (ok : RuleOk W E nb body head) {R as cs d} (h : Built c R as cs d) {x : String}
    (hu : Used body head x) : x ∉ d.bounded → UsedIn body head (R ++ negOf body) as cs x := by
  obtain ⟨b1, b2, b3, b4⟩ := h.applied hc ok
  induction hu with
  | head hx => intro _; exact .head hx
  | @con k x hk hx =>
    intro hn
    rcases b4 k hk with h' | h'
    · exact .con h' hx
    · exact absurd (h' x hx) hn
  | @pos a x ha hx =>
    intro hn
    rcases b1 a ha with h' | h'
    · exact .atom (List.mem_append.mpr (Or.inl h')) hx
    · exact absurd (h' x hx) hn
  | neg ha hx => intro _; exact .atom (List.mem_append.mpr (Or.inr ha)) hx
  | @assign y e x ha hs _ hx ih =>
    intro hn
    rcases b3 _ ha with h' | h'
    · exact .assign h' hs (ih (h.sole hc ok _ h' hs)) hx
    · exact absurd (h'.2 x hx) hn
  | @new y e x ha hs _ hx ih => intro _; exact .new ha hs (ih (h.new hc ok _ ha hs)) hx

theorem sublist_flatMap {α β : Type} {f : α → List β} {l₁ l₂ : List α} (h : l₁.Sublist l₂) : (l₁.flatMap f).Sublist (l₂.flatMap f) := by
  induction h with
  | slnil => exact List.Sublist.refl _
  | cons a _ ih => rw [List.flatMap_cons]; exact ih.trans (List.sublist_append_right _ _)
  | cons_cons a _ ih => rw [List.flatMap_cons, List.flatMap_cons]; exact (List.Sublist.refl _).append ih

theorem Built.fits (hc : CtxOf body c) {nb head} (ok : RuleOk W E nb body head) {R as cs d} (h : Built c R as cs d) : ∀ {need dup},
    (∀ x ∈ d.bounded, UsedIn body head (R ++ negOf body) as cs x → need x) →
    (dup = true → ¬ ((consOf body).flatMap (fun c => uniq c.vars)).Nodup) → Fits W E d need dup := by
  induction h with
  | unit _ _ => intro _ _ _ _; trivial
  | @ground a R h _ =>
    intro need dup _ hd
    have ha : a ∈ posOf body := by rw [← hc.pos]; exact h.mem_iff.mp List.mem_cons_self
    refine ⟨(ok.flat a (Or.inl ha)).1, (ok.flat a (Or.inl ha)).2, ?_, ok.static a (Or.inl ha)⟩
    intro hdup hconst
    exact (ok.dup a ha hconst).resolve_right (hd hdup)
  | reduces _ h =>
    intro need dup _ _
    exact (reduces_first hc ok h).2.2 _ _
  | @join a R as cs d h ih =>
    intro need dup hneed hd
    have ha : a ∈ posOf body := h.posSub hc a List.mem_cons_self
    refine ⟨fun _ => Or.inr (Or.inr rfl), ih ?_ (by simp), (ok.flat a (Or.inl ha)).1, (ok.flat a (Or.inl ha)).2, by simp, ok.static a (Or.inl ha)⟩
    intro x hx hu
    have key : ∀ {x}, UsedIn body head (a :: R ++ negOf body) as cs x → UsedIn body head (R ++ negOf body) as cs x ∨ x ∈ atomVars a := by
      intro x hu
      induction hu with
      | head hx => exact Or.inl (.head hx)
      | con hk hx => exact Or.inl (.con hk hx)
      | atom ha hx =>
        rcases List.mem_cons.mp ha with rfl | ha
        · exact Or.inr hx
        · exact Or.inl (.atom ha hx)
      | assign ha' hs _ hx ih =>
        exact Or.inl (.assign ha' hs (ih.resolve_right (hs.2.1 a ha)) hx)
      | new ha' hs _ hx ih =>
        exact Or.inl (.new ha' hs (ih.resolve_right (fun hy => ok.newFresh _ ha' hs (.atom ha hy (fun _ _ h => h)))) hx)
    rcases key hu with h' | h'
    · exact Or.inl (hneed x (List.mem_append.mpr (Or.inl hx)) h')
    · exact Or.inr (mem_joinVars.mpr ⟨hx, h'⟩)
  | @project R as cs d l h hl ih =>
    intro need dup hneed hd
    have hl' : ∀ a ∈ l, a ∈ as ∧ assignApplies d.bounded a = true := by
      intro a ha
      rw [← hl] at ha
      exact List.mem_filter.mp ha
    have key : ∀ {x}, UsedIn body head (R ++ negOf body) as cs x →
        UsedIn body head (R ++ negOf body) (as.filter (fun a => !assignApplies d.bounded a)) cs x ∨
        ∃ a ∈ l, UsedIn body head (R ++ negOf body) (as.filter (fun a => !assignApplies d.bounded a)) cs a.1 ∧ x ∈ a.2.vars := by
      intro x hu
      have hres : ∀ {y}, y ∉ d.bounded → (UsedIn body head (R ++ negOf body) (as.filter (fun a => !assignApplies d.bounded a)) cs y ∨
        ∃ a ∈ l, UsedIn body head (R ++ negOf body) (as.filter (fun a => !assignApplies d.bounded a)) cs a.1 ∧ y ∈ a.2.vars) →
          UsedIn body head (R ++ negOf body) (as.filter (fun a => !assignApplies d.bounded a)) cs y := by
        rintro y hy (h | ⟨a, ha, _, h⟩)
        · exact h
        · exact absurd ((assignApplies_iff.mp (hl' a ha).2).2.2 y h) hy
      induction hu with
      | head hx => exact Or.inl (.head hx)
      | con hk hx => exact Or.inl (.con hk hx)
      | atom ha hx => exact Or.inl (.atom ha hx)
      | @assign y e x ha hs _ hx ih =>
        by_cases hap : assignApplies d.bounded (y, e) = true
        · have hal : (y, e) ∈ l := by rw [← hl, List.mem_filter]; exact ⟨ha, hap⟩
          exact Or.inr ⟨(y, e), hal, hres (assignApplies_iff.mp hap).1 ih, hx⟩
        · exact Or.inl (.assign (by rw [List.mem_filter]; exact ⟨ha, by simpa using hap⟩) hs (hres (h.sole hc ok _ ha hs) ih) hx)
      | new ha hs _ hx ih => exact Or.inl (.new ha hs (hres (h.new hc ok _ ha hs) ih) hx)
    have hneeda : ∀ a ∈ l, UsedIn body head (R ++ negOf body) (as.filter (fun a => !assignApplies d.bounded a)) cs a.1 → need a.1 :=
      fun a ha hu => hneed a.1 (List.mem_append.mpr (Or.inr (List.mem_map.mpr ⟨a, ha, rfl⟩))) hu
    refine ⟨?_, ?_, ?_, ?_, ih ?_ hd⟩
    · intro x
      simp [List.mem_append, List.mem_map]
    · intro a ha
      have := assignApplies_iff.mp (hl' a ha).2
      exact ⟨this.1, this.2.2⟩
    · rw [List.Nodup, List.pairwise_map]
      have hsub : l.Sublist (assignsOf body) := by rw [← hl]; exact List.filter_sublist.trans (h.assignsSub hc)
      refine (ok.once.sublist hsub).imp_of_mem ?_
      intro a b ha hb hab
      exact hab (h.live hc ok (hl' a ha).2) (h.live hc ok (hl' b hb).2)
    · intro a ha
      have hap := assignApplies_iff.mp (hl' a ha).2
      rcases ok.used a ((h.assignsSub hc).subset (hl' a ha).1) (h.live hc ok (hl' a ha).2) with hu | hu
      · left
        rcases key (h.usedIn hc ok hu hap.1) with h' | ⟨b, hb, _, hx⟩
        · exact hneeda a ha h'
        · exact absurd ((assignApplies_iff.mp (hl' b hb).2).2.2 _ hx) hap.1
      · exact Or.inr (fun σ _ => hu σ)
    · intro x hx hu
      rcases key hu with h' | ⟨a, ha, h', hxa⟩
      · exact Or.inl (hneed x (List.mem_append.mpr (Or.inl hx)) h')
      · exact Or.inr ⟨a, ha, hneeda a ha h', hxa⟩
  | @filter R as cs d l h hl ih =>
    intro need dup hneed hd
    have hl' : ∀ k ∈ l, k ∈ cs ∧ ∀ x ∈ k.vars, x ∈ d.bounded := by
      intro k hk
      rw [← hl] at hk
      have := List.mem_filter.mp hk
      exact ⟨this.1, by simpa using this.2⟩
    refine ⟨fun x hx => hx, fun k hk => (hl' k hk).2, fun _ x hx => hx, ih ?_ ?_⟩
    · have key : ∀ {x}, UsedIn body head (R ++ negOf body) as cs x →
          UsedIn body head (R ++ negOf body) as (cs.filter (fun c => !(c.vars.all (fun v => decide (v ∈ d.bounded))))) x ∨ ∃ k ∈ l, x ∈ k.vars := by
        intro x hu
        have hres : ∀ {y}, y ∉ d.bounded →
            (UsedIn body head (R ++ negOf body) as (cs.filter (fun c => !(c.vars.all (fun v => decide (v ∈ d.bounded))))) y ∨ ∃ k ∈ l, y ∈ k.vars) →
            UsedIn body head (R ++ negOf body) as (cs.filter (fun c => !(c.vars.all (fun v => decide (v ∈ d.bounded))))) y := by
          rintro y hy (h | ⟨k, hk, h⟩)
          · exact h
          · exact absurd ((hl' k hk).2 y h) hy
        induction hu with
        | head hx => exact Or.inl (.head hx)
        | @con k x hk hx =>
          by_cases hap : k.vars.all (fun v => decide (v ∈ d.bounded)) = true
          · exact Or.inr ⟨k, by rw [← hl, List.mem_filter]; exact ⟨hk, hap⟩, hx⟩
          · exact Or.inl (.con (by rw [List.mem_filter]; exact ⟨hk, by simpa using hap⟩) hx)
        | atom ha hx => exact Or.inl (.atom ha hx)
        | assign ha hs _ hx ih => exact Or.inl (.assign ha hs (hres (h.sole hc ok _ ha hs) ih) hx)
        | new ha hs _ hx ih => exact Or.inl (.new ha hs (hres (h.new hc ok _ ha hs) ih) hx)
      intro x hx hu
      rcases key hu with h' | h'
      · exact Or.inl ⟨hneed x hx h', hx⟩
      · exact Or.inr h'
    · intro hdup hnd
      rw [Bool.or_eq_true, Bool.not_eq_true', decide_eq_false_iff_not] at hdup
      rcases hdup with hdup | hdup
      · exact hd hdup hnd
      · refine hdup (hnd.sublist ?_)
        have hsub : l.Sublist (consOf body) := by rw [← hl]; exact List.filter_sublist.trans (h.consSub hc)
        exact sublist_flatMap hsub

/-! ## Applying everything that can be applied -/

/-- Nothing pending can be applied. -/
def Fix (as : List (String × AExpr String F)) (cs : List (Con F)) (d : Plan F) : Prop :=
  as.filter (assignApplies d.bounded) = [] ∧ cs.filter (fun c => c.vars.all (fun v => decide (v ∈ d.bounded))) = []

theorem tryAssigns_spec {R} : ∀ {fuel} {p : Pending F} {d}, p.assigns.length ≤ fuel → Built c R p.assigns p.cons d →
    Built c R (tryAssigns fuel p d).1.assigns (tryAssigns fuel p d).1.cons (tryAssigns fuel p d).2 ∧ (tryAssigns fuel p d).1.cons = p.cons ∧
      (tryAssigns fuel p d).1.fps = p.fps ∧ (tryAssigns fuel p d).1.assigns.filter (assignApplies (tryAssigns fuel p d).2.bounded) = [] ∧
      (tryAssigns fuel p d).1.assigns.length ≤ p.assigns.length
  | 0, p, d, hf, h => by
    have : p.assigns = [] := by simpa using hf
    rw [tryAssigns]
    exact ⟨h, rfl, rfl, by simp only [this]; rfl, Nat.le_refl _⟩
  | fuel + 1, p, d, hf, h => by
    rw [tryAssigns]
    split
    · rename_i he
      exact ⟨h, rfl, rfl, he, Nat.le_refl _⟩
    · rename_i a as he
      have hlen : (p.assigns.filter (fun a => !assignApplies d.bounded a)).length < p.assigns.length := by
        have ha : a ∈ p.assigns ∧ assignApplies d.bounded a = true := by
          rw [← List.mem_filter, he]
          exact List.mem_cons_self
        refine Nat.lt_of_le_of_ne (List.length_filter_le _ _) ?_
        intro e
        have := List.length_filter_eq_length_iff.mp e a ha.1
        rw [ha.2] at this
        cases this
      have hb := Built.project h he
      obtain ⟨h1, h2, h3, h4, h5⟩ := tryAssigns_spec (R := R) (fuel := fuel)
        (p := { p with assigns := p.assigns.filter (fun a => !assignApplies d.bounded a) })
        (d := .project (d.bounded ++ (a :: as).map Prod.fst) d (a :: as)) (by exact (Nat.lt_succ_iff.mp (Nat.lt_of_lt_of_le hlen hf))) hb
      exact ⟨h1, h2, h3, h4, Nat.le_trans h5 (Nat.le_of_lt hlen)⟩

theorem tryCons_spec {R} {p : Pending F} {d} (h : Built c R p.assigns p.cons d) :
    Built c R (tryCons p d).1.assigns (tryCons p d).1.cons (tryCons p d).2 ∧ (tryCons p d).1.assigns = p.assigns ∧ (tryCons p d).1.fps = p.fps ∧
      (tryCons p d).2.bounded = d.bounded ∧ (tryCons p d).1.cons.filter (fun c => c.vars.all (fun v => decide (v ∈ (tryCons p d).2.bounded))) = [] ∧
      (tryCons p d).1.cons.length ≤ p.cons.length := by
  rw [tryCons]
  simp only
  split
  · rename_i he
    exact ⟨h, rfl, rfl, rfl, he, Nat.le_refl _⟩
  · rename_i k ks he
    refine ⟨Built.filter h he, rfl, rfl, rfl, ?_, List.length_filter_le _ _⟩
    simp only [Plan.bounded, List.filter_eq_nil_iff, List.mem_filter, and_imp]
    intro k' _ h1 h2
    rw [Bool.not_eq_true', ← Bool.not_eq_true] at h1
    apply h1
    rw [List.all_eq_true] at h2 ⊢
    exact fun x hx => decide_eq_true (of_decide_eq_true (h2 x hx))

theorem tryRound_spec {R} {p : Pending F} {d} (hfp : p.fps = []) (h : Built c R p.assigns p.cons d) :
    ∃ p' d', tryRound c p d = some (p', d') ∧ Built c R p'.assigns p'.cons d' ∧ p'.fps = [] ∧ Fix p'.assigns p'.cons d' ∧ p'.size ≤ p.size := by
  obtain ⟨a1, a2, a3, a4, a5⟩ := tryAssigns_spec (Nat.le_refl _) h
  obtain ⟨c1, c2, c3, c4, c5, c6⟩ := tryCons_spec a1
  have hf : (tryCons (tryAssigns p.assigns.length p d).1 (tryAssigns p.assigns.length p d).2).1.fps = [] := by rw [c3, a3, hfp]
  refine ⟨{ (tryCons (tryAssigns p.assigns.length p d).1 (tryAssigns p.assigns.length p d).2).1 with fps := [] }, _, ?_, c1, rfl, ⟨?_, c5⟩, ?_⟩
  · simp only [tryRound, hf, tryFps, Option.map_some]
  · simp only [c2, c4, a4]
  · simp only [Pending.size, List.length_nil, c2]
    rw [a2] at c6
    omega

theorem tryApply_spec {R} : ∀ {fuel} {p : Pending F} {d}, p.size < fuel → p.fps = [] → Built c R p.assigns p.cons d →
    ∃ p' d', tryApply c fuel p d = some (p', d') ∧ Built c R p'.assigns p'.cons d' ∧ p'.fps = [] ∧ Fix p'.assigns p'.cons d'
  | 0, _, _, hf, _, _ => by omega
  | fuel + 1, p, d, hf, hfp, h => by
    obtain ⟨p1, d1, e1, b1, f1, x1, s1⟩ := tryRound_spec hfp h
    rw [tryApply, e1, Option.bind_some]
    simp only
    split
    · exact ⟨p1, d1, rfl, b1, f1, x1⟩
    · exact tryApply_spec (by omega) f1 b1

theorem tryApplyAll_spec {R} {p : Pending F} {d} (hfp : p.fps = []) (h : Built c R p.assigns p.cons d) :
    ∃ p' d', tryApplyAll c p d = some (p', d') ∧ Built c R p'.assigns p'.cons d' ∧ p'.fps = [] ∧ Fix p'.assigns p'.cons d' :=
  tryApply_spec (Nat.lt_succ_self _) hfp h

/-! ## Joining the atoms -/

theorem joinAtoms_spec : ∀ {is : List Nat} {R} {p : Pending F} {d}, is.map (fun i => c.pos[i]?) = R.map some → p.fps = [] →
    Fix p.assigns p.cons d → Built c R p.assigns p.cons d →
    ∃ p' d', joinAtoms c is p d = some (p', d') ∧ Built c [] p'.assigns p'.cons d' ∧ Fix p'.assigns p'.cons d'
  | [], R, p, d, hR, _, hx, h => by
    have : R = [] := by simpa using hR
    subst this
    exact ⟨p, d, rfl, h, hx⟩
  | i :: is, [], p, d, hR, _, _, _ => by simp at hR
  | i :: is, a :: R, p, d, hR, hfp, hx, h => by
    simp only [List.map_cons, List.cons.injEq] at hR
    obtain ⟨p1, d1, e1, b1, f1, x1⟩ := tryApplyAll_spec hfp (Built.join h)
    rw [joinAtoms, hR.1, Option.bind_some, e1, Option.bind_some]
    exact joinAtoms_spec hR.2 f1 x1 b1

theorem order_atoms {order : List Nat} (ho : order.Perm (List.range c.pos.length)) :
    ∃ R : List (Atom String F), order.map (fun i => c.pos[i]?) = R.map some ∧ R.Perm c.pos := by
  have hR : ∀ l : List Nat, (∀ i ∈ l, i < c.pos.length) → l.map (fun i => c.pos[i]?) = (l.filterMap (fun i => c.pos[i]?)).map some := by
    intro l
    induction l with
    | nil => intro _; rfl
    | cons i l ih =>
      intro hl
      have hi := hl i List.mem_cons_self
      rw [List.map_cons, List.filterMap_cons, List.getElem?_eq_getElem hi, List.map_cons, ih (fun j hj => hl j (List.mem_cons_of_mem _ hj))]
  refine ⟨order.filterMap (fun i => c.pos[i]?), hR order (fun i hi => List.mem_range.mp (ho.mem_iff.mp hi)), ?_⟩
  refine (ho.filterMap _).trans ?_
  have : (List.range c.pos.length).filterMap (fun i => c.pos[i]?) = c.pos := by
    apply List.ext_getElem?
    intro n
    have e := hR (List.range c.pos.length) (fun i hi => List.mem_range.mp hi)
    have e' := congrArg (fun l => l[n]?) e
    simp only [List.getElem?_map] at e'
    by_cases hn : n < c.pos.length
    · rw [List.getElem?_range hn] at e'
      simp only [Option.map_some, List.getElem?_eq_getElem hn] at e'
      rw [List.getElem?_eq_getElem hn]
      cases he : ((List.range c.pos.length).filterMap (fun i => c.pos[i]?))[n]? with
      | none => rw [he] at e'; cases e'
      | some v => rw [he] at e'; simpa using e'.symm
    · have hlen : ((List.range c.pos.length).filterMap (fun i => c.pos[i]?)).length ≤ (List.range c.pos.length).length := List.length_filterMap_le _ _
      rw [List.length_range] at hlen
      rw [List.getElem?_eq_none (by omega), List.getElem?_eq_none (by omega)]
  rw [this]

theorem built_of_order (hfps : c.fps = []) {order : List Nat} (ho : order.Perm (List.range c.pos.length)) :
    ∃ p d rest, firstFringe c order = some (p, d, rest) ∧ ∃ p' d', joinAtoms c rest p d = some (p', d') ∧ Built c [] p'.assigns p'.cons d' ∧
      Fix p'.assigns p'.cons d' := by
  obtain ⟨R, hR, hp⟩ := order_atoms ho
  unfold firstFringe
  simp only
  cases hr : c.reduces with
  | cons r rs =>
    obtain ⟨p1, d1, e1, b1, f1, x1⟩ := tryApplyAll_spec (c := c) (R := R) (p := { assigns := c.assigns, cons := c.cons, fps := c.fps }) hfps
      (Built.reduces hp hr)
    obtain ⟨p2, d2, e2, b2, x2⟩ := joinAtoms_spec hR f1 x1 b1
    exact ⟨p1, d1, order, by simp only [e1, Option.map_some], p2, d2, e2, b2, x2⟩
  | nil =>
    cases order with
    | nil =>
      have : R = [] := by simpa using hR
      subst this
      obtain ⟨p1, d1, e1, b1, f1, x1⟩ := tryApplyAll_spec (c := c) (R := []) (p := { assigns := c.assigns, cons := c.cons, fps := c.fps }) hfps
        (Built.unit hp hr)
      simp only [hfps] at e1 ⊢
      exact ⟨p1, d1, [], by simp only [e1, Option.map_some], p1, d1, rfl, b1, x1⟩
    | cons i rest =>
      cases R with
      | nil => simp at hR
      | cons a R =>
        simp only [List.map_cons, List.cons.injEq] at hR
        obtain ⟨p1, d1, e1, b1, f1, x1⟩ := tryApplyAll_spec (c := c) (R := R) (p := { assigns := c.assigns, cons := c.cons, fps := c.fps }) hfps
          (Built.ground hp hr)
        obtain ⟨p2, d2, e2, b2, x2⟩ := joinAtoms_spec hR.2 f1 x1 b1
        exact ⟨p1, d1, rest, by simp only [hR.1, Option.bind_some, e1, Option.map_some], p2, d2, e2, b2, x2⟩

/-! ## The finished plan -/

theorem Built.boundAll (hc : CtxOf body c) {nb head} (ok : RuleOk W E nb body head) {as cs d} (h : Built c [] as cs d) (hx : Fix as cs d) {x : String}
    (hb : Bound body (fun _ => False) x) : x ∈ d.bounded := by
  obtain ⟨b1, b2, b3, _⟩ := h.applied hc ok
  induction hb with
  | atom ha hx' _ => exact ((b1 _ ha).resolve_left (by simp)) _ hx'
  | reduce hr hx' _ => exact b2 _ hr _ hx'
  | @assign x e ha hn _ _ ih =>
    rcases b3 _ ha with h' | h'
    · by_contra hnot
      have : (x, e) ∈ as.filter (assignApplies d.bounded) := by
        rw [List.mem_filter, assignApplies_iff]
        exact ⟨h', hnot, hn, ih⟩
      rw [hx.1] at this
      cases this
    · exact h'.1

theorem Built.consAll (hc : CtxOf body c) {nb head} (ok : RuleOk W E nb body head) {as cs d} (h : Built c [] as cs d) (hx : Fix as cs d) : cs = [] := by
  rw [← hx.2, eq_comm, List.filter_eq_self]
  intro k hk
  simp only [List.all_eq_true, decide_eq_true_eq]
  exact fun y hy => h.boundAll hc ok hx (ok.safeCon k ((h.consSub hc).subset hk) y hy)

theorem Built.soleAll (hc : CtxOf body c) {nb head} (ok : RuleOk W E nb body head) {as cs d} (h : Built c [] as cs d) (hx : Fix as cs d) {x e}
    (ha : (x, e) ∈ as) : ¬ Sole body x e := by
  intro hs
  have : (x, e) ∈ as.filter (assignApplies d.bounded) := by
    rw [List.mem_filter, assignApplies_iff]
    exact ⟨ha, h.sole hc ok _ ha hs, hs.1.1, fun y hy => h.boundAll hc ok hx (ok.safeAssign _ ((h.assignsSub hc).subset ha) y hy)⟩
  rw [hx.1] at this
  cases this

/-! ## Negated atoms -/

theorem antis_bounded (ns : List (Atom String F)) : ∀ d : Plan F, (ns.foldl (fun d a => Plan.antijoin d (.ground a)) d).bounded = d.bounded := by
  induction ns with
  | nil => intro d; rfl
  | cons a ns ih => intro d; rw [List.foldl_cons, ih]; rfl

theorem antis_sat : ∀ (ns : List (Atom String F)) (d : Plan F), (∀ a ∈ ns, ∀ x ∈ atomVars a, x ∈ d.bounded) → ∀ σ,
    (Sat W (ns.foldl (fun d a => .antijoin d (.ground a)) d) σ ↔ Sat W d σ ∧ ∀ a ∈ ns, ¬ W.I a.predicate (flat (a.args.map (Term.val σ))))
  | [], d, _, σ => by simp
  | a :: ns, d, hb, σ => by
    rw [List.foldl_cons, antis_sat ns (.antijoin d (.ground a)) (fun b hb' => hb b (List.mem_cons_of_mem _ hb')) σ]
    have : Sat W (.antijoin d (.ground a)) σ ↔ Sat W d σ ∧ ¬ W.I a.predicate (flat (a.args.map (Term.val σ))) := by
      simp only [Sat]
      refine and_congr_right (fun _ => not_congr ⟨?_, fun h => ⟨σ, fun _ _ => rfl, h⟩⟩)
      rintro ⟨τ, hag, h⟩
      rwa [atom_args_congr (σ := σ) (τ := τ) (fun x hx => hag x (mem_joinVars.mpr ⟨hb a List.mem_cons_self x hx, hx⟩))]
    rw [this]
    simp only [List.forall_mem_cons, and_assoc]

theorem antis_fits {U : String → Prop} : ∀ (ns : List (Atom String F)) (d : Plan F),
    (∀ a ∈ ns, (FlatRel W a ∧ NoConstNames (atomVars a)) ∧ (E.static a.predicate = some true → (atomVars a).Nodup)) →
    (∀ need, (∀ x ∈ d.bounded, (U x ∨ ∃ a ∈ ns, x ∈ atomVars a) → need x) → Fits W E d need false) →
    ∀ need, (∀ x ∈ d.bounded, U x → need x) → Fits W E (ns.foldl (fun d a => .antijoin d (.ground a)) d) need false
  | [], d, _, hd, need, hn => hd need (fun x hx h => hn x hx (by simpa using h))
  | a :: ns, d, hfl, hd, need, hn => by
    rw [List.foldl_cons]
    refine antis_fits ns (.antijoin d (.ground a)) (fun b hb => hfl b (List.mem_cons_of_mem _ hb)) ?_ need hn
    intro need' hn'
    refine ⟨fun _ => Or.inr rfl, hd _ ?_, (hfl a List.mem_cons_self).1.1, (hfl a List.mem_cons_self).1.2, by simp, (hfl a List.mem_cons_self).2⟩
    rintro x hx (h | ⟨b, hb, h⟩)
    · exact Or.inl (hn' x hx (Or.inl h))
    · rcases List.mem_cons.mp hb with rfl | hb
      · exact Or.inr (mem_joinVars.mpr ⟨hx, h⟩)
      · exact Or.inl (hn' x hx (Or.inr ⟨b, hb, h⟩))

/-! ## New entities -/

theorem applyNew_bounded (d : Plan F) : ∀ x, x ∈ (applyNew c d).bounded ↔ x ∈ d.bounded ∨ ∃ a ∈ c.assigns, isNew a.2 = true ∧ a.1 = x := by
  intro x
  rw [applyNew]
  split
  · rename_i he
    rw [List.filter_eq_nil_iff] at he
    constructor
    · exact Or.inl
    · rintro (h | ⟨a, ha, hn, _⟩)
      · exact h
      · exact absurd hn (he a ha)
  · rename_i a as he
    simp only [Plan.bounded, List.mem_append, List.mem_map]
    rw [← he]
    constructor
    · rintro (⟨b, hb, rfl⟩ | h)
      · exact Or.inr ⟨b, (List.mem_filter.mp hb).1, (List.mem_filter.mp hb).2, rfl⟩
      · exact Or.inl h
    · rintro (h | ⟨b, hb, hn, rfl⟩)
      · exact Or.inr h
      · exact Or.inl ⟨b, List.mem_filter.mpr ⟨hb, hn⟩, rfl⟩

theorem applyNew_sat (d : Plan F) (σ : Asg F) :
    Sat W (applyNew c d) σ ↔ Sat W d σ ∧ ∀ a ∈ c.assigns, isNew a.2 = true → a.2.val W.X σ = .ok (σ a.1) := by
  rw [applyNew]
  split
  · rename_i he
    rw [List.filter_eq_nil_iff] at he
    exact ⟨fun h => ⟨h, fun a ha hn => absurd hn (he a ha)⟩, fun h => h.1⟩
  · rename_i a as he
    simp only [Sat]
    rw [← he]
    simp only [List.mem_filter, and_imp]

theorem new_defined {X : Ext F} {σ : Asg F} {e : AExpr String F} (h : isNew e = true) : ∃ v, e.val X σ = .ok v := by
  cases e with
  | new f args => exact ⟨_, rfl⟩
  | _ => cases h

theorem applyNew_fits {need : String → Prop} (d : Plan F) (hout : ∀ a ∈ c.assigns, isNew a.2 = true → a.1 ∉ d.bounded)
    (hin : ∀ a ∈ c.assigns, isNew a.2 = true → ∀ x ∈ a.2.vars, x ∈ d.bounded)
    (hn : ((c.assigns.filter (fun a => isNew a.2)).map Prod.fst).Nodup)
    (hd : Fits W E d (fun x => need x ∨ ∃ a ∈ c.assigns, isNew a.2 = true ∧ need a.1 ∧ x ∈ a.2.vars) false) :
    Fits W E (applyNew c d) need false := by
  rw [applyNew]
  split
  · rename_i he
    rw [List.filter_eq_nil_iff] at he
    refine hd.mono ?_
    rintro x _ (h | ⟨a, ha, hn, _⟩)
    · exact h
    · exact absurd hn (he a ha)
  · rename_i a as he
    have hm : ∀ b ∈ a :: as, b ∈ c.assigns ∧ isNew b.2 = true := by
      intro b hb
      rw [← he] at hb
      exact List.mem_filter.mp hb
    refine ⟨?_, ?_, ?_, ?_, hd.mono ?_⟩
    · intro x
      simp only [List.mem_append, List.mem_map]
      exact or_comm
    · exact fun b hb => ⟨hout b (hm b hb).1 (hm b hb).2, hin b (hm b hb).1 (hm b hb).2⟩
    · rwa [he] at hn
    · exact fun b hb => Or.inr (fun σ _ => new_defined (hm b hb).2)
    · rintro x _ (h | ⟨b, hb, hnb, hnd, hx⟩)
      · exact Or.inl h
      · refine Or.inr ⟨b, ?_, hnd, hx⟩
        rw [← he]
        exact List.mem_filter.mpr ⟨hb, hnb⟩

/-! ## The plan of a rule -/

/-- The plan of a rule that meets the conditions exists, can be translated, contains the variables of the head, is satisfied whenever the
literals of the body are, and then only if those that are kept are. -/
theorem queryPlan_good {S : Search} (hS : S.Lawful) {nb head} (ok : RuleOk W E nb body head) :
    ∃ c d, Ctx.fromRule nb body = some c ∧ queryPlan S c = some d ∧ Fits W E d (fun x => x ∈ head) false ∧ (∀ x ∈ head, x ∈ d.bounded) ∧
      (∀ σ, (∀ l ∈ body, LitHolds W σ l) → Sat W d σ) ∧ (∀ σ, Sat W d σ → ∀ l ∈ body, Kept body l → LitHolds W σ l) := by
  obtain ⟨c, e, hc⟩ := fromRule_spec ok.nofp ok.noff
  obtain ⟨order, e1, hperm⟩ := atomOrder_spec hS (n := c.pos.length) (beam := 5) (by decide)
  obtain ⟨p1, d1, rest, e2, p2, d2, e3, hb, hx⟩ := built_of_order hc.fps hperm
  have hbneg : ∀ a ∈ c.neg, ∀ x ∈ atomVars a, x ∈ d2.bounded := by
    intro a ha x hx'
    rw [hc.neg] at ha
    exact hb.boundAll hc ok hx (ok.safeNeg a ha x hx')
  refine ⟨c, applyNew c (c.neg.foldl (fun d a => .antijoin d (.ground a)) d2), e, ?_, ?_, ?_, ?_, ?_⟩
  · simp only [queryPlan, e1, Option.bind_some, queryPlanOf, e2, e3, Option.map_some]
  · refine applyNew_fits _ ?_ ?_ (by rw [hc.assigns]; exact ok.newOnce) ?_
    · intro a ha hn
      rw [antis_bounded]
      exact hb.new hc ok a (by rwa [← hc.assigns]) hn
    · intro a ha hn x hx'
      rw [antis_bounded]
      exact hb.boundAll hc ok hx (ok.safeAssign a (by rwa [← hc.assigns]) x hx')
    · refine antis_fits (U := fun x => x ∈ head ∨ ∃ a ∈ c.assigns, isNew a.2 = true ∧ a.1 ∈ head ∧ x ∈ a.2.vars) c.neg d2 ?_ ?_ _ (fun x _ h => h)
      · intro a ha
        rw [hc.neg] at ha
        exact ⟨ok.flat a (Or.inr ha), ok.static a (Or.inr ha)⟩
      · intro need hneed
        refine hb.fits hc ok ?_ (by simp)
        intro x hxb hu
        refine hneed x hxb ?_
        clear hxb
        rw [hb.consAll hc ok hx, List.nil_append] at hu
        induction hu with
        | head h => exact Or.inl (Or.inl h)
        | con h _ => cases h
        | atom ha h => exact Or.inr ⟨_, by rwa [hc.neg], h⟩
        | assign ha hs _ _ _ => exact absurd hs (hb.soleAll hc ok hx ha)
        | @new y e x ha hn _ hx' ih =>
          rcases ih with (ih | ⟨a, ha', _, _, hy⟩) | ⟨a, ha', hy⟩
          · exact Or.inl (Or.inr ⟨(y, e), by rwa [hc.assigns], hn, ih, hx'⟩)
          · exact absurd (ok.safeAssign a (by rwa [← hc.assigns]) y hy) (ok.newFresh _ ha hn)
          · exact absurd (ok.safeNeg a (by rwa [← hc.neg]) y hy) (ok.newFresh _ ha hn)
  · intro x hx'
    rw [applyNew_bounded, antis_bounded]
    rcases ok.safeHead x hx' with h | ⟨e, he, hn⟩
    · exact Or.inl (hb.boundAll hc ok hx h)
    · exact Or.inr ⟨(x, e), by rwa [hc.assigns], hn, rfl⟩
  · intro σ hl
    have hl := (lits_iff (fun _ => True) ok.noff).mp (fun l h _ => hl l h)
    obtain ⟨h1, h2, h3, h4, h5, h6⟩ := hl
    rw [applyNew_sat, antis_sat _ _ hbneg]
    refine ⟨⟨hb.complete hc ok (fun a ha => h1 a ha trivial) ?_ (fun a ha => h3 a ha trivial) ?_, ?_⟩, ?_⟩
    · intro r hr
      simp only [reducesOf, List.mem_filterMap] at hr
      obtain ⟨l, hl, he⟩ := hr
      cases l <;> simp at he
      subst he
      exact h6 _ _ hl trivial
    · intro k hk
      cases k with
      | bin op a b => exact h4 op a b hk trivial
      | not a => exact h5 a hk trivial
    · intro a ha
      exact h2 a (by rwa [← hc.neg]) trivial
    · intro a ha _
      exact h3 a (by rwa [← hc.assigns]) trivial
  · intro σ hs
    rw [applyNew_sat, antis_sat _ _ hbneg] at hs
    obtain ⟨⟨hs, hneg⟩, hnew⟩ := hs
    obtain ⟨h1, h2, h3, h4⟩ := hb.sound hc ok hs
    rw [hb.consAll hc ok hx] at h4
    refine (lits_iff (Kept body) ok.noff).mpr ⟨?_, ?_, ?_, ?_, ?_, ?_⟩
    · intro a ha _
      exact (h1 a ha).resolve_left (by simp)
    · intro a ha _
      exact hneg a (by rwa [hc.neg])
    · intro a ha hk
      rcases hk with hk | hk
      · exact hnew a (by rwa [hc.assigns]) hk
      · exact (h3 a ha).resolve_left (fun h => hb.soleAll hc ok hx h hk)
    · intro op a b hk _
      exact (h4 _ hk).resolve_left (by simp)
    · intro a hk _
      exact (h4 _ hk).resolve_left (by simp)
    · intro r vs hl _
      exact h2 r (List.mem_filterMap.mpr ⟨_, hl, rfl⟩)

/-! ## What the plan looks at -/

theorem reduces_scans : ∀ (rs : List Reduce) (d : Plan F), (rs.foldl (fun d r => Plan.join d (.reduce r)) d).scans = d.scans ∧
    (rs.foldl (fun d r => Plan.join d (.reduce r)) d).denied = d.denied ∧ (rs.foldl (fun d r => Plan.join d (.reduce r)) d).checks = d.checks
  | [], d => ⟨rfl, rfl, rfl⟩
  | r :: rs, d => by
    rw [List.foldl_cons]
    obtain ⟨h1, h2, h3⟩ := reduces_scans rs (.join d (.reduce r))
    refine ⟨h1.trans ?_, h2.trans ?_, h3.trans ?_⟩
    · simp [Plan.scans]
    · simp [Plan.denied]
    · simp [Plan.checks]

theorem Built.scans {R as cs d} (h : Built c R as cs d) : (d.scans ++ R).Perm c.pos ∧ d.denied = [] := by
  induction h with
  | unit h _ => exact ⟨h, rfl⟩
  | ground h _ => exact ⟨h, rfl⟩
  | @reduces R r rs h _ =>
    obtain ⟨h1, h2, _⟩ := reduces_scans rs (.reduce r : Plan F)
    rw [h1, h2]
    exact ⟨h, rfl⟩
  | @join a R as cs d _ ih =>
    refine ⟨?_, ?_⟩
    · simp only [Plan.scans, List.append_assoc, List.singleton_append]
      exact ih.1
    · simp only [Plan.denied, List.append_nil]
      exact ih.2
  | project _ _ ih => exact ih
  | filter _ _ ih => exact ih

theorem Built.checks {R as cs d} (h : Built c R as cs d) : (d.checks ++ cs).Perm c.cons := by
  induction h with
  | unit _ _ => exact List.Perm.refl _
  | ground _ _ => exact List.Perm.refl _
  | @reduces R r rs _ _ =>
    rw [(reduces_scans rs (.reduce r : Plan F)).2.2]
    exact List.Perm.refl _
  | join _ ih => simpa [Plan.checks] using ih
  | project _ _ ih => exact ih
  | @filter R as cs d l _ hl ih =>
    simp only [Plan.checks, List.append_assoc]
    refine List.Perm.trans ?_ ih
    refine List.Perm.append_left _ ?_
    rw [← hl]
    exact List.filter_append_perm _ cs

theorem antis_scans : ∀ (ns : List (Atom String F)) (d : Plan F), (ns.foldl (fun d a => Plan.antijoin d (.ground a)) d).scans = d.scans ∧
    (ns.foldl (fun d a => Plan.antijoin d (.ground a)) d).denied = d.denied ++ ns ∧
    (ns.foldl (fun d a => Plan.antijoin d (.ground a)) d).checks = d.checks
  | [], d => ⟨rfl, by simp, rfl⟩
  | a :: ns, d => by
    rw [List.foldl_cons]
    obtain ⟨h1, h2, h3⟩ := antis_scans ns (.antijoin d (.ground a))
    refine ⟨h1, h2.trans ?_, h3.trans ?_⟩
    · simp [Plan.denied, Plan.scans]
    · simp [Plan.checks]

theorem applyNew_scans (d : Plan F) : (applyNew c d).scans = d.scans ∧ (applyNew c d).denied = d.denied ∧ (applyNew c d).checks = d.checks := by
  rw [applyNew]
  split
  · exact ⟨rfl, rfl, rfl⟩
  · exact ⟨rfl, rfl, rfl⟩

theorem queryPlan_scans {S : Search} (hS : S.Lawful) {nb : String → Option Nat} (h1 : ∀ a ∈ posOf body, nb a.predicate = none)
    (h2 : Lit.ff ∉ body) :
    ∃ c d, Ctx.fromRule nb body = some c ∧ queryPlan S c = some d ∧ d.scans.Perm (posOf body) ∧ d.denied = negOf body ∧
      ∃ rest, (d.checks ++ rest).Perm (consOf body) := by
  obtain ⟨c, e, hc⟩ := fromRule_spec h1 h2
  obtain ⟨order, e1, hperm⟩ := atomOrder_spec hS (n := c.pos.length) (beam := 5) (by decide)
  obtain ⟨p1, d1, rest, e2, p2, d2, e3, hb, hx⟩ := built_of_order hc.fps hperm
  refine ⟨c, applyNew c (c.neg.foldl (fun d a => .antijoin d (.ground a)) d2), e, ?_, ?_, ?_, p2.cons, ?_⟩
  · simp only [queryPlan, e1, Option.bind_some, queryPlanOf, e2, e3, Option.map_some]
  · rw [(applyNew_scans _).1, (antis_scans _ _).1, ← hc.pos]
    simpa using hb.scans.1
  · rw [(applyNew_scans _).2.1, (antis_scans _ _).2.1, hb.scans.2, ← hc.neg, List.nil_append]
  · rw [(applyNew_scans _).2.2, (antis_scans _ _).2.2, ← hc.cons]
    exact hb.checks

/-- With the conditions on the rule, all constraints are checked. -/
theorem queryPlan_checks {S : Search} (hS : S.Lawful) {nb head} (ok : RuleOk W E nb body head) :
    ∃ c d, Ctx.fromRule nb body = some c ∧ queryPlan S c = some d ∧ d.checks.Perm (consOf body) := by
  obtain ⟨c, e, hc⟩ := fromRule_spec ok.nofp ok.noff
  obtain ⟨order, e1, hperm⟩ := atomOrder_spec hS (n := c.pos.length) (beam := 5) (by decide)
  obtain ⟨p1, d1, rest, e2, p2, d2, e3, hb, hx⟩ := built_of_order hc.fps hperm
  refine ⟨c, applyNew c (c.neg.foldl (fun d a => .antijoin d (.ground a)) d2), e, ?_, ?_⟩
  · simp only [queryPlan, e1, Option.bind_some, queryPlanOf, e2, e3, Option.map_some]
  · rw [(applyNew_scans _).2.2, (antis_scans _ _).2.2, ← hc.cons]
    have := hb.checks
    rwa [hb.consAll hc ok hx, List.append_nil] at this

end Scallop.Plan
