import Verif.Spec.Tags
import Verif.Props.Dual
import Mathlib.Tactic.Linarith
import Mathlib.Tactic.Ring
import Mathlib.Algebra.BigOperators.Group.List.Basic

namespace Scallop

variable {X T W : Type*}

/-- Sum of a list of tags, product of a list of tags. -/
def sumOf (c : Prov T W) (l : List T) : T := l.foldr c.add c.zero
def prodOf (c : Prov T W) (l : List T) : T := l.foldr c.mult c.one

section
variable {c : Prov T W} {P : T → Prop} (h : c.SemiringOn P)
include h

theorem sumOf_mem (l : List T) (hl : ∀ t ∈ l, P t) : P (sumOf c l) := by
  induction l with
  | nil => exact h.zero_mem
  | cons t l ih => exact h.add_mem _ _ (hl t (by simp)) (ih (fun s hs => hl s (by simp [hs])))

theorem prodOf_mem (l : List T) (hl : ∀ t ∈ l, P t) : P (prodOf c l) := by
  induction l with
  | nil => exact h.one_mem
  | cons t l ih => exact h.mult_mem _ _ (hl t (by simp)) (ih (fun s hs => hl s (by simp [hs])))

theorem sumOf_append (l m : List T) (hl : ∀ t ∈ l, P t) (hm : ∀ t ∈ m, P t) : sumOf c (l ++ m) = c.add (sumOf c l) (sumOf c m) := by
  induction l with
  | nil => exact (h.zero_add _ (sumOf_mem h m hm)).symm
  | cons t l ih =>
    have hl' : ∀ s ∈ l, P s := fun s hs => hl s (by simp [hs])
    have : sumOf c (t :: l ++ m) = c.add t (sumOf c (l ++ m)) := rfl
    rw [this, ih hl']
    exact (h.add_assoc _ _ _ (hl t (by simp)) (sumOf_mem h l hl') (sumOf_mem h m hm)).symm

theorem prodOf_append (l m : List T) (hl : ∀ t ∈ l, P t) (hm : ∀ t ∈ m, P t) : prodOf c (l ++ m) = c.mult (prodOf c l) (prodOf c m) := by
  induction l with
  | nil => exact (h.one_mult _ (prodOf_mem h m hm)).symm
  | cons t l ih =>
    have hl' : ∀ s ∈ l, P s := fun s hs => hl s (by simp [hs])
    have : prodOf c (t :: l ++ m) = c.mult t (prodOf c (l ++ m)) := rfl
    rw [this, ih hl']
    exact (h.mult_assoc _ _ _ (hl t (by simp)) (prodOf_mem h l hl') (prodOf_mem h m hm)).symm

theorem mult_sumOf (a : T) (ha : P a) (l : List T) (hl : ∀ t ∈ l, P t) : c.mult a (sumOf c l) = sumOf c (l.map (c.mult a)) := by
  induction l with
  | nil =>
    show c.mult a c.zero = c.zero
    rw [h.mult_comm _ _ ha h.zero_mem]; exact h.zero_mult a ha
  | cons t l ih =>
    have hl' : ∀ s ∈ l, P s := fun s hs => hl s (by simp [hs])
    have e1 : sumOf c (t :: l) = c.add t (sumOf c l) := rfl
    have e2 : sumOf c ((t :: l).map (c.mult a)) = c.add (c.mult a t) (sumOf c (l.map (c.mult a))) := rfl
    rw [e1, e2, ← ih hl']
    exact h.mult_add _ _ _ ha (hl t (by simp)) (sumOf_mem h l hl')

theorem sumOf_mult (l : List T) (hl : ∀ t ∈ l, P t) (b : T) (hb : P b) : c.mult (sumOf c l) b = sumOf c (l.map (fun a => c.mult a b)) := by
  induction l with
  | nil => exact h.zero_mult b hb
  | cons t l ih =>
    have hl' : ∀ s ∈ l, P s := fun s hs => hl s (by simp [hs])
    have ht := hl t (by simp)
    have e1 : sumOf c (t :: l) = c.add t (sumOf c l) := rfl
    have e2 : sumOf c ((t :: l).map (fun a => c.mult a b)) = c.add (c.mult t b) (sumOf c (l.map (fun a => c.mult a b))) := rfl
    have hs := sumOf_mem h l hl'
    rw [e1, e2, ← ih hl', h.mult_comm _ _ (h.add_mem _ _ ht hs) hb, h.mult_add _ _ _ hb ht hs, h.mult_comm b t hb ht, h.mult_comm b _ hb hs]

/-- In a semiring a tag is the sum over all derivations of the product of the input tags they use. -/
theorem eval_derivations (f : X → T) (hf : ∀ x, P (f x)) (e : TagExpr X) :
    e.eval c f = sumOf c (e.derivations.map (fun d => prodOf c (d.map f))) := by
  have hd : ∀ d : List X, P (prodOf c (d.map f)) := fun d => prodOf_mem h _ (by
    intro t ht; obtain ⟨x, _, rfl⟩ := List.mem_map.mp ht; exact hf x)
  have hds : ∀ (ds : List (List X)), ∀ t ∈ ds.map (fun d => prodOf c (d.map f)), P t := by
    intro ds t ht; obtain ⟨d, _, rfl⟩ := List.mem_map.mp ht; exact hd d
  induction e with
  | input x =>
    show f x = c.add (c.mult (f x) c.one) c.zero
    rw [h.mult_comm _ _ (hf x) h.one_mem, h.one_mult _ (hf x), h.add_comm _ _ (hf x) h.zero_mem, h.zero_add _ (hf x)]
  | zero => rfl
  | one =>
    show c.one = c.add c.one c.zero
    rw [h.add_comm _ _ h.one_mem h.zero_mem, h.zero_add _ h.one_mem]
  | add a b iha ihb =>
    show c.add (a.eval c f) (b.eval c f) = _
    rw [iha, ihb, TagExpr.derivations, List.map_append, sumOf_append h _ _ (hds _) (hds _)]
  | mult a b iha ihb =>
    show c.mult (a.eval c f) (b.eval c f) = _
    rw [iha, ihb, TagExpr.derivations]
    generalize a.derivations = da
    generalize b.derivations = db
    induction da with
    | nil => exact h.zero_mult _ (sumOf_mem h _ (hds _))
    | cons p da ih =>
      have hs := sumOf_mem h _ (hds da)
      have hb := sumOf_mem h _ (hds db)
      rw [List.flatMap_cons, List.map_append, sumOf_append h _ _ (hds _) (hds _), ← ih]
      have e1 : sumOf c ((p :: da).map (fun d => prodOf c (d.map f))) =
        c.add (prodOf c (p.map f)) (sumOf c (da.map (fun d => prodOf c (d.map f)))) := rfl
      rw [e1, h.mult_comm _ _ (h.add_mem _ _ (hd p) hs) hb, h.mult_add _ _ _ hb (hd p) hs, h.mult_comm _ _ hb hs,
        h.mult_comm _ _ hb (hd p), mult_sumOf h _ (hd p) _ (hds db)]
      congr 2
      rw [List.map_map, List.map_map]
      apply List.map_congr_left
      intro q _
      simp only [Function.comp]
      rw [List.map_append, prodOf_append h]
      · intro t ht; obtain ⟨x, _, rfl⟩ := List.mem_map.mp ht; exact hf x
      · intro t ht; obtain ⟨x, _, rfl⟩ := List.mem_map.mp ht; exact hf x

end

section
variable {K : Type*} [Field K] [LinearOrder K] [IsStrictOrderedRing K]

/-- The probability component of diff-max-mult-prob, as a provenance of its own. -/
def maxMultReal (K : Type*) [Field K] [LinearOrder K] : Prov K K where
  zero := 0
  one := 1
  add := fun a b => max a b
  mult := fun a b => a * b
  negate := fun a => some (1 - a)
  saturated := fun a b => decide (a = b)
  discard := fun t => decide (t ≤ 0)
  weight := fun t => t

omit [IsStrictOrderedRing K] in
theorem maxMult_real (thr : K) (f : X → DualNumber2 K) (e : TagExpr X) :
    (e.eval (diffMaxMultProv K thr) f).real = e.eval (maxMultReal K) (fun x => (f x).real) := by
  induction e with
  | input x => rfl
  | zero => rfl
  | one => rfl
  | add a b iha ihb =>
    simp only [TagExpr.eval]
    have : ∀ a b : DualNumber2 K, ((diffMaxMultProv K thr).add a b).real = max a.real b.real := fun a b => (c44_max_min a b).1
    rw [this, iha, ihb]; rfl
  | mult a b iha ihb =>
    simp only [TagExpr.eval]
    have : ∀ a b : DualNumber2 K, ((diffMaxMultProv K thr).mult a b).real = a.real * b.real := fun _ _ => rfl
    rw [this, iha, ihb]; rfl

theorem maxMultReal_semiring : (maxMultReal K).SemiringOn (fun t => 0 ≤ t) where
  zero_mem := le_refl _
  one_mem := zero_le_one
  add_mem := fun _ _ h _ => le_trans h (le_max_left _ _)
  mult_mem := fun _ _ h h' => mul_nonneg h h'
  add_comm := fun _ _ _ _ => max_comm _ _
  add_assoc := fun _ _ _ _ _ _ => max_assoc _ _ _
  zero_add := fun _ h => max_eq_right h
  mult_comm := fun _ _ _ _ => mul_comm _ _
  mult_assoc := fun _ _ _ _ _ _ => mul_assoc _ _ _
  one_mult := fun _ _ => one_mul _
  zero_mult := fun _ _ => zero_mul _
  mult_add := fun _ _ _ h _ _ => mul_max_of_nonneg _ _ h

theorem claimed_near {t : K × Derivative} {v v' : Nat → K} (ht : claimed t v = t.1) {ε : K} (h0 : 0 < ε) (h : ∀ j, |v' j - v j| < ε) :
    |claimed t v' - t.1| < ε := by
  obtain ⟨p, d⟩ := t
  cases d with
  | pos i => simp only [claimed] at ht ⊢; rw [← ht]; exact h i
  | neg i =>
    simp only [claimed] at ht ⊢; rw [← ht]
    have : 1 - v' i - (1 - v i) = -(v' i - v i) := by ring
    rw [this, abs_neg]; exact h i
  | zero => simpa [claimed] using h0

/-- Where the derivative of a tag comes from. -/
def FromExpr (e : LatExpr K) (t : K × Derivative) : Prop :=
  match t.2 with
  | .pos i => i ∈ e.vars
  | .neg i => i ∈ e.vars
  | .zero => ∃ c ∈ e.consts, t.1 = c ∨ t.1 = 1 - c

theorem diffTag_spec (thr : K) (v : Nat → K) (e : LatExpr K) :
    ∃ t, e.diffTag thr v = some t ∧ t.1 = e.value v ∧ claimed t v = t.1 ∧ FromExpr e t := by
  induction e with
  | var i => exact ⟨_, rfl, rfl, rfl, by simp [FromExpr, LatExpr.vars]⟩
  | const c => exact ⟨_, rfl, rfl, rfl, c, by simp [LatExpr.consts], Or.inl rfl⟩
  | or a b iha ihb =>
    obtain ⟨x, hx, hx1, hx2, hx3⟩ := iha
    obtain ⟨y, hy, hy1, hy2, hy3⟩ := ihb
    have fx : FromExpr (.or a b) x := by
      unfold FromExpr at *
      obtain ⟨p, d⟩ := x
      cases d
      · exact List.mem_append_left _ hx3
      · obtain ⟨c, hc, h⟩ := hx3; exact ⟨c, List.mem_append_left _ hc, h⟩
      · exact List.mem_append_left _ hx3
    have fy : FromExpr (.or a b) y := by
      unfold FromExpr at *
      obtain ⟨p, d⟩ := y
      cases d
      · exact List.mem_append_right _ hy3
      · obtain ⟨c, hc, h⟩ := hy3; exact ⟨c, List.mem_append_right _ hc, h⟩
      · exact List.mem_append_right _ hy3
    refine ⟨_, by unfold LatExpr.diffTag at hx hy ⊢; rw [LatExpr.tag, hx, hy]; rfl, ?_⟩
    simp only [diffMinMaxProv, LatExpr.value, ← hx1, ← hy1]
    split
    · rename_i h; exact ⟨(max_eq_left h.le).symm, hx2, fx⟩
    · rename_i h; exact ⟨(max_eq_right (not_lt.mp h)).symm, hy2, fy⟩
  | and a b iha ihb =>
    obtain ⟨x, hx, hx1, hx2, hx3⟩ := iha
    obtain ⟨y, hy, hy1, hy2, hy3⟩ := ihb
    have fx : FromExpr (.and a b) x := by
      unfold FromExpr at *
      obtain ⟨p, d⟩ := x
      cases d
      · exact List.mem_append_left _ hx3
      · obtain ⟨c, hc, h⟩ := hx3; exact ⟨c, List.mem_append_left _ hc, h⟩
      · exact List.mem_append_left _ hx3
    have fy : FromExpr (.and a b) y := by
      unfold FromExpr at *
      obtain ⟨p, d⟩ := y
      cases d
      · exact List.mem_append_right _ hy3
      · obtain ⟨c, hc, h⟩ := hy3; exact ⟨c, List.mem_append_right _ hc, h⟩
      · exact List.mem_append_right _ hy3
    refine ⟨_, by unfold LatExpr.diffTag at hx hy ⊢; rw [LatExpr.tag, hx, hy]; rfl, ?_⟩
    simp only [diffMinMaxProv, LatExpr.value, ← hx1, ← hy1]
    split
    · rename_i h; exact ⟨(min_eq_right h.le).symm, hy2, fy⟩
    · rename_i h; exact ⟨(min_eq_left (not_lt.mp h)).symm, hx2, fx⟩
  | not a iha =>
    obtain ⟨x, hx, hx1, hx2, hx3⟩ := iha
    refine ⟨(1 - x.1, x.2.negate), by unfold LatExpr.diffTag at hx ⊢; rw [LatExpr.tag, hx]; rfl, by simp only [LatExpr.value, ← hx1], ?_⟩
    obtain ⟨p, d⟩ := x
    cases d with
    | pos i => exact ⟨by simp only [claimed, Derivative.negate] at hx2 ⊢; rw [hx2], hx3⟩
    | neg i => exact ⟨by simp only [claimed, Derivative.negate] at hx2 ⊢; rw [← hx2]; ring, hx3⟩
    | zero =>
      refine ⟨rfl, ?_⟩
      obtain ⟨c, hc, h⟩ := hx3
      refine ⟨c, hc, ?_⟩
      simp only at h
      rcases h with rfl | rfl
      · right; rfl
      · left; simp

theorem claimed_tie (v : Nat → K) (e : LatExpr K) (hn : e.NoTies v) (x y : K × Derivative) (hx : FromExpr e x) (hy : FromExpr e y)
    (cx : claimed x v = x.1) (cy : claimed y v = y.1) (h : x.1 = y.1) (v' : Nat → K) : claimed x v' = claimed y v' := by
  obtain ⟨p, d⟩ := x
  obtain ⟨q, d'⟩ := y
  simp only at h
  subst h
  cases d with
  | pos i =>
    cases d' with
    | pos j =>
      simp only [claimed, FromExpr] at *
      by_cases hij : i = j
      · rw [hij]
      · exact absurd (cx.trans cy.symm) (hn.vars i hx j hy hij)
    | neg j =>
      simp only [claimed, FromExpr] at *
      exact absurd (cx.trans cy.symm) (hn.negs i hx j hy)
    | zero =>
      simp only [claimed, FromExpr] at *
      obtain ⟨c, hc, h⟩ := hy
      rcases h with rfl | rfl
      · exact absurd cx (hn.consts i hx _ hc).1
      · exact absurd cx (hn.consts i hx _ hc).2
  | neg i =>
    cases d' with
    | pos j =>
      simp only [claimed, FromExpr] at *
      exact absurd (cy.trans cx.symm) (hn.negs j hy i hx)
    | neg j =>
      simp only [claimed, FromExpr] at *
      by_cases hij : i = j
      · rw [hij]
      · exact absurd (by linarith) (hn.vars i hx j hy hij)
    | zero =>
      simp only [claimed, FromExpr] at *
      obtain ⟨c, hc, h⟩ := hy
      rcases h with rfl | rfl
      · exact absurd (by linarith) (hn.consts i hx _ hc).2
      · exact absurd (by linarith) (hn.consts i hx _ hc).1
  | zero =>
    cases d' with
    | pos j =>
      simp only [claimed, FromExpr] at *
      obtain ⟨c, hc, h⟩ := hx
      rcases h with rfl | rfl
      · exact absurd cy (hn.consts j hy _ hc).1
      · exact absurd cy (hn.consts j hy _ hc).2
    | neg j =>
      simp only [claimed, FromExpr] at *
      obtain ⟨c, hc, h⟩ := hx
      rcases h with rfl | rfl
      · exact absurd (by linarith) (hn.consts j hy _ hc).2
      · exact absurd (by linarith) (hn.consts j hy _ hc).1
    | zero => rfl

/-- For a pair of tags with claims: near `v` the larger claim is the claim of the larger tag. -/
theorem claimed_max (v : Nat → K) (x y : K × Derivative) (cx : claimed x v = x.1) (cy : claimed y v = y.1)
    (tie : x.1 = y.1 → ∀ v', claimed x v' = claimed y v') :
    ∃ ε, 0 < ε ∧ ∀ v', (∀ j, |v' j - v j| < ε) →
      max (claimed x v') (claimed y v') = claimed (if y.1 < x.1 then x else y) v' ∧
      min (claimed x v') (claimed y v') = claimed (if y.1 < x.1 then y else x) v' := by
  rcases lt_trichotomy x.1 y.1 with h | h | h
  · refine ⟨(y.1 - x.1) / 2, by linarith, fun v' hv => ?_⟩
    have h1 := abs_lt.mp (claimed_near cx (by linarith) hv)
    have h2 := abs_lt.mp (claimed_near cy (by linarith) hv)
    have hle : claimed x v' ≤ claimed y v' := by linarith [h1.1, h1.2, h2.1, h2.2]
    rw [if_neg (not_lt.mpr h.le), if_neg (not_lt.mpr h.le)]
    exact ⟨max_eq_right hle, min_eq_left hle⟩
  · refine ⟨1, one_pos, fun v' _ => ?_⟩
    have he := tie h v'
    rw [if_neg (by rw [h]; exact lt_irrefl _), if_neg (by rw [h]; exact lt_irrefl _), he]
    exact ⟨max_self _, min_self _⟩
  · refine ⟨(x.1 - y.1) / 2, by linarith, fun v' hv => ?_⟩
    have h1 := abs_lt.mp (claimed_near cx (by linarith) hv)
    have h2 := abs_lt.mp (claimed_near cy (by linarith) hv)
    have hle : claimed y v' ≤ claimed x v' := by linarith [h1.1, h1.2, h2.1, h2.2]
    rw [if_pos h, if_pos h]
    exact ⟨max_eq_left hle, min_eq_right hle⟩

/-- Sub-formulas inherit the absence of ties. -/
theorem noTies_sub {v : Nat → K} {e a : LatExpr K} (h : e.NoTies v) (hv : ∀ i ∈ a.vars, i ∈ e.vars) (hc : ∀ c ∈ a.consts, c ∈ e.consts) :
    a.NoTies v :=
  ⟨fun i hi j hj => h.vars i (hv i hi) j (hv j hj), fun i hi j hj => h.negs i (hv i hi) j (hv j hj),
    fun i hi c hc' => h.consts i (hv i hi) c (hc c hc')⟩

end

end Scallop
