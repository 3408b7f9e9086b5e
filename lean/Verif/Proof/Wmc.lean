import Verif.Proof.SddEval
import Verif.Proof.Dual
import Mathlib.Algebra.BigOperators.Ring.Finset
import Mathlib.Algebra.BigOperators.Group.Finset.Powerset
import Mathlib.Tactic.LinearCombination

/-! # Expectations and weighted counting -/

namespace Scallop

namespace Sdd

open VTree (Sub)

variable {K : Type*} [CommRing K]

/-- Setting one variable. -/
def upd (w : Nat → Bool) (v : Nat) (x : Bool) : Nat → Bool := fun u => if u = v then x else w u

/-- The expectation of `F` when the variables of the list are drawn independently, the others fixed by `w`. -/
def E (p : Nat → K) : List Nat → ((Nat → Bool) → K) → (Nat → Bool) → K
  | [], F, w => F w
  | v :: vs, F, w => p v * E p vs F (upd w v true) + (1 - p v) * E p vs F (upd w v false)

/-- `F` depends only on the variables of the list. -/
def Dep {α : Type*} (vs : List Nat) (F : (Nat → Bool) → α) : Prop := ∀ w w', (∀ v ∈ vs, w v = w' v) → F w = F w'

theorem E_congr {p : Nat → K} {F G : (Nat → Bool) → K} (h : ∀ w, F w = G w) : ∀ vs w, E p vs F w = E p vs G w
  | [], w => h w
  | v :: vs, w => by simp only [E, E_congr h vs]

theorem E_add {p : Nat → K} {F G : (Nat → Bool) → K} : ∀ vs w, E p vs (fun w => F w + G w) w = E p vs F w + E p vs G w
  | [], w => rfl
  | v :: vs, w => by simp only [E, E_add vs]; ring

theorem E_const {p : Nat → K} (c : K) : ∀ vs w, E p vs (fun _ => c) w = c
  | [], w => rfl
  | v :: vs, w => by simp only [E, E_const c vs]; ring

theorem E_append {p : Nat → K} {F : (Nat → Bool) → K} : ∀ l r w, E p (l ++ r) F w = E p l (E p r F) w
  | [], r, w => rfl
  | v :: l, r, w => by simp only [List.cons_append, E, E_append l]

theorem E_mulr {p : Nat → K} {F G : (Nat → Bool) → K} : ∀ vs w, (∀ w v x, v ∈ vs → G (upd w v x) = G w) →
    E p vs (fun w => F w * G w) w = E p vs F w * G w
  | [], w, _ => rfl
  | v :: vs, w, h => by
    have h' : ∀ w u x, u ∈ vs → G (upd w u x) = G w := fun w u x hu => h w u x (by simp [hu])
    simp only [E, E_mulr vs _ h', h w v _ (by simp)]
    ring

theorem Dep.upd {α : Type*} {vs : List Nat} {F : (Nat → Bool) → α} (h : Dep vs F) {v : Nat} (hv : v ∉ vs) (w : Nat → Bool) (x : Bool) :
    F (Sdd.upd w v x) = F w := by
  apply h
  intro u hu
  have : u ≠ v := fun e => hv (e ▸ hu)
  simp [Sdd.upd, this]

/-- An expectation over all the variables on which `F` depends does not depend on the world. -/
theorem E_dep {p : Nat → K} {F : (Nat → Bool) → K} : ∀ vs us, Dep (vs ++ us) F → Dep us (E p vs F)
  | [], us, h => h
  | v :: vs, us, h => by
    intro w w' hw
    have ih := E_dep (p := p) vs (v :: us) (F := F) (by
      intro a b hab
      exact h a b (fun u hu => hab u (by simp at hu ⊢; tauto)))
    have key : ∀ x, E p vs F (Sdd.upd w v x) = E p vs F (Sdd.upd w' v x) := by
      intro x
      apply ih
      intro u hu
      simp only [Sdd.upd]
      split
      · rfl
      · rename_i hne
        exact hw u (by simpa [hne] using hu)
    simp only [E, key]

theorem E_const_world {p : Nat → K} {F : (Nat → Bool) → K} {vs : List Nat} (h : Dep vs F) (w w' : Nat → Bool) : E p vs F w = E p vs F w' :=
  E_dep vs [] (by simpa using h) w w' (by simp)

theorem E_indep {p : Nat → K} {F : (Nat → Bool) → K} : ∀ {vs : List Nat} {us : List Nat}, Dep us F → (∀ v ∈ vs, v ∉ us) → ∀ w, E p vs F w = F w
  | [], _, _, _, _ => rfl
  | v :: vs, us, h, hd, w => by
    have hd' : ∀ u ∈ vs, u ∉ us := fun u hu => hd u (by simp [hu])
    have hv : v ∉ us := hd v (by simp)
    simp only [E, E_indep h hd', h.upd hv]
    ring

/-- Independence. -/
theorem E_prod {p : Nat → K} {F G : (Nat → Bool) → K} {l r : List Nat} (hF : Dep l F) (hG : Dep r G) (hd : ∀ v ∈ r, v ∉ l) (w : Nat → Bool) :
    E p (l ++ r) (fun w => F w * G w) w = E p l F w * E p r G w := by
  rw [E_append]
  have h1 : ∀ w', E p r (fun w => F w * G w) w' = F w' * E p r G w := by
    intro w'
    have : E p r (fun w => G w * F w) w' = E p r G w' * F w' :=
      E_mulr r w' (fun w v x hv => hF.upd (hd v hv) w x)
    rw [E_congr (G := fun w => G w * F w) (fun w => mul_comm _ _), this, E_const_world hG w' w, mul_comm]
  rw [E_congr h1]
  exact E_mulr l w (fun _ _ _ _ => rfl)

/-- Marginalisation. -/
theorem E_sub {p : Nat → K} {F : (Nat → Bool) → K} {s S : VTree} (h : Sub s S) (nd : (varsOf S).Nodup) (hF : Dep (varsOf s) F) (w : Nat → Bool) :
    E p (varsOf S) F w = E p (varsOf s) F w := by
  have subvars : ∀ {s S : VTree}, Sub s S → ∀ v ∈ varsOf s, v ∈ varsOf S := by
    intro s S h
    induction h with
    | refl => exact fun v hv => hv
    | left i r _ ih => intro v hv; simp only [varsOf, VTree.leaves, List.map_append, List.mem_append]; exact .inl (ih v hv)
    | right i l _ ih => intro v hv; simp only [varsOf, VTree.leaves, List.map_append, List.mem_append]; exact .inr (ih v hv)
  induction h generalizing w with
  | refl => rfl
  | @left l i r h ih =>
    have e : varsOf (.branch i l r) = varsOf l ++ varsOf r := by simp [varsOf, VTree.leaves]
    rw [e] at nd ⊢
    obtain ⟨n1, n2, n3⟩ := List.nodup_append.1 nd
    rw [E_append, E_congr (fun w' => E_indep hF (fun v hv hv' => n3 v (subvars h v hv') v hv rfl) w'), ih n1]
  | @right r i l h ih =>
    have e : varsOf (.branch i l r) = varsOf l ++ varsOf r := by simp [varsOf, VTree.leaves]
    rw [e] at nd ⊢
    obtain ⟨n1, n2, n3⟩ := List.nodup_append.1 nd
    rw [E_append, E_congr (G := fun _ => E p (varsOf s) F w) (fun w' => by rw [ih n2, E_const_world hF w' w]), E_const]

/-- The indicator of a set of worlds. -/
def ind (K : Type*) [CommRing K] (g : (Nat → Bool) → Bool) : (Nat → Bool) → K := fun w => if g w then 1 else 0

theorem Dep.ind {vs : List Nat} {g : (Nat → Bool) → Bool} (h : Dep vs g) : Dep vs (Sdd.ind K g) := by
  intro w w' hw
  simp only [Sdd.ind, h w w' hw]

/-- Constants and nodes of the builder, with the vtree they are attached to. -/
theorem den_dep {T b D} (h : Inv T b D) : ∀ (n : Nat) (S : VTree), Within b S n → Sub S T → Dep (varsOf S) (D n) := by
  intro n
  induction n using Nat.strong_induction_on with
  | _ n ih =>
    intro S hw hS
    by_cases h0 : n = 0
    · subst h0; intro w w' _; rw [h.d0, h.d0]
    by_cases h1 : n = 1
    · subst h1; intro w w' _; rw [h.d1, h.d1]
    obtain ⟨s, node, hs, hv, hg, hok⟩ := h.at hS hw h0 h1
    have subvars : ∀ {s S : VTree}, Sub s S → ∀ v ∈ varsOf s, v ∈ varsOf S := by
      intro s S h
      induction h with
      | refl => exact fun v hv => hv
      | left i r _ ih => intro v hv; simp only [varsOf, VTree.leaves, List.map_append, List.mem_append]; exact .inl (ih v hv)
      | right i l _ ih => intro v hv; simp only [varsOf, VTree.leaves, List.map_append, List.mem_append]; exact .inr (ih v hv)
    intro w w' hww
    cases node with
    | lit x =>
      cases x with
      | pos v =>
        obtain ⟨⟨i, rfl⟩, hd⟩ := hok
        rw [hd, hd, hww v (subvars hs v (by simp [varsOf, VTree.leaves]))]
      | neg v =>
        obtain ⟨⟨i, rfl⟩, hd⟩ := hok
        rw [hd, hd, hww v (subvars hs v (by simp [varsOf, VTree.leaves]))]
      | tru => exact hok.elim
      | fls => exact hok.elim
    | or cs =>
      obtain ⟨i, l, r, rfl, hco, hlt, hden, -⟩ := hok
      rw [hden, hden]
      apply any_congr'
      intro c hc
      have hl : Sub l (.branch i l r) := .left _ _ (.refl _)
      have hr : Sub r (.branch i l r) := .right _ _ (.refl _)
      rw [ih c.1 (hlt c hc).1 l (hco.primes c hc) ((hl.trans hs).trans hS) w w' (fun v hv => hww v (subvars (hl.trans hs) v hv)),
        ih c.2 (hlt c hc).2 r (hco.subs c hc) ((hr.trans hs).trans hS) w w' (fun v hv => hww v (subvars (hr.trans hs) v hv))]

theorem foldChildren_spec {rec : Nat → Option K} {val : Nat → K} : ∀ {cs : List (Nat × Nat)} (acc : K),
    (∀ c ∈ cs, rec c.1 = some (val c.1) ∧ rec c.2 = some (val c.2)) →
    Diagram.foldChildren (Diagram.realAlgebra K) rec acc cs = some (acc + (cs.map (fun c => val c.1 * val c.2)).sum)
  | [], acc, _ => by simp [Diagram.foldChildren]
  | c :: cs, acc, h => by
    obtain ⟨h1, h2⟩ := h c (by simp)
    simp only [Diagram.foldChildren, h1, h2]
    rw [foldChildren_spec _ (fun c' hc' => h c' (by simp [hc']))]
    simp only [Diagram.realAlgebra, List.map_cons, List.sum_cons]
    congr 1; ring

theorem ind_any (K : Type*) [CommRing K] {w : Nat → Bool} {P S : Nat → (Nat → Bool) → Bool} : ∀ {cs : List (Nat × Nat)}, cs.countP (fun c => P c.1 w) ≤ 1 →
    (if cs.any (fun c => P c.1 w && S c.2 w) then (1 : K) else 0) = (cs.map (fun c => ind K (P c.1) w * ind K (S c.2) w)).sum
  | [], _ => by simp
  | c :: cs, h => by
    rw [List.countP_cons] at h
    cases hc : P c.1 w with
    | true =>
      have h0 : cs.countP (fun c => P c.1 w) = 0 := by simp [hc] at h; simpa using h
      have hz : (cs.map (fun c => ind K (P c.1) w * ind K (S c.2) w)).sum = 0 := by
        rw [← ind_any K (P := P) (S := S) (by omega), any_none (fun c : Nat × Nat => P c.1 w) (fun c => S c.2 w) h0]; simp
      rw [List.map_cons, List.sum_cons, hz, List.any_cons, any_none (fun c : Nat × Nat => P c.1 w) (fun c => S c.2 w) h0]
      simp [ind, hc]
    | false =>
      rw [List.map_cons, List.sum_cons, ← ind_any K (P := P) (S := S) (by omega), List.any_cons, hc, Bool.false_and, Bool.false_or]
      simp [ind, hc]

theorem E_sum {p : Nat → K} {α : Type} (F : α → (Nat → Bool) → K) (vs : List Nat) (w : Nat → Bool) : ∀ cs : List α,
    E p vs (fun w => (cs.map (fun c => F c w)).sum) w = (cs.map (fun c => E p vs (F c) w)).sum
  | [] => by simpa using E_const (p := p) (0 : K) vs w
  | c :: cs => by
    simp only [List.map_cons, List.sum_cons]
    rw [E_add, E_sum F vs w cs]

theorem evalNodeT_spec {T b D} (h : Inv T b D) (nd : (varsOf T).Nodup) {d : Diagram} {P : Nat → Prop} (hd : Holds d b P) (p : Nat → K)
    (w : Nat → Bool) : ∀ (fuel n : Nat) (S : VTree), n < fuel → P n → Within b S n → Sub S T →
      d.evalNodeT (Diagram.realAlgebra K) p fuel n = some (E p (varsOf S) (ind K (D n)) w) := by
  have ndsub : ∀ {s S : VTree}, Sub s S → (varsOf S).Nodup → (varsOf s).Nodup := by
    intro s S hs
    induction hs with
    | refl => exact fun h => h
    | left i r _ ih => intro hn; simp only [varsOf, VTree.leaves, List.map_append] at hn; exact ih (List.nodup_append.1 hn).1
    | right i l _ ih => intro hn; simp only [varsOf, VTree.leaves, List.map_append] at hn; exact ih (List.nodup_append.1 hn).2.1
  intro fuel
  induction fuel with
  | zero => intro n S hn; omega
  | succ fuel ih =>
    intro n S hn hP hw hS
    obtain ⟨hlt, hlook⟩ := hd.node n hP
    by_cases h0 : n = 0
    · subst h0
      rw [h.n0] at hlook
      simp only [Diagram.evalNodeT, hlook]
      rw [E_congr (G := fun _ => 0) (fun w => by simp [ind, h.d0]), E_const]; rfl
    by_cases h1 : n = 1
    · subst h1
      rw [h.n1] at hlook
      simp only [Diagram.evalNodeT, hlook]
      rw [E_congr (G := fun _ => 1) (fun w => by simp [ind, h.d1]), E_const]; rfl
    obtain ⟨s, node, hs, hv, hg, hok⟩ := h.at hS hw h0 h1
    have hsT := hs.trans hS
    have hdep := den_dep h n s (.inr (.inr ⟨s, .refl _, hv⟩)) hsT
    rw [E_sub hs (ndsub hS nd) hdep.ind]
    rw [hg] at hlook
    cases node with
    | lit x =>
      cases x with
      | pos v =>
        obtain ⟨⟨i, rfl⟩, hden⟩ := hok
        simp only [Diagram.evalNodeT, hlook]
        simp [varsOf, VTree.leaves, E, ind, hden, upd]
      | neg v =>
        obtain ⟨⟨i, rfl⟩, hden⟩ := hok
        simp only [Diagram.evalNodeT, hlook]
        simp [varsOf, VTree.leaves, E, ind, hden, upd, Diagram.realAlgebra]
      | tru => exact hok.elim
      | fls => exact hok.elim
    | or cs =>
      obtain ⟨i, l, r, rfl, hco, hlts, hden, -⟩ := hok
      have hl : Sub l (.branch i l r) := .left _ _ (.refl _)
      have hr : Sub r (.branch i l r) := .right _ _ (.refl _)
      have ev : varsOf (.branch i l r) = varsOf l ++ varsOf r := by simp [varsOf, VTree.leaves]
      have nds := ndsub hsT nd
      rw [ev] at nds
      obtain ⟨-, -, hdisj⟩ := List.nodup_append.1 nds
      simp only [Diagram.evalNodeT, hlook]
      have hrec : ∀ c ∈ cs, d.evalNodeT (Diagram.realAlgebra K) p fuel c.1 = some (E p (varsOf l) (ind K (D c.1)) w) ∧
          d.evalNodeT (Diagram.realAlgebra K) p fuel c.2 = some (E p (varsOf r) (ind K (D c.2)) w) := by
        intro c hc
        obtain ⟨p1, p2⟩ := hd.child n cs hP hg c hc
        obtain ⟨q1, q2⟩ := hlts c hc
        exact ⟨ih _ l (by omega) p1 (hco.primes c hc) (hl.trans hsT), ih _ r (by omega) p2 (hco.subs c hc) (hr.trans hsT)⟩
      have hfold : Diagram.foldChildren (Diagram.realAlgebra K) (d.evalNodeT (Diagram.realAlgebra K) p fuel) 0 cs =
          some (0 + (cs.map (fun c => E p (varsOf l) (ind K (D c.1)) w * E p (varsOf r) (ind K (D c.2)) w)).sum) := by
        clear hden hco hlts hlook hg
        have gen : ∀ (acc : K), Diagram.foldChildren (Diagram.realAlgebra K) (d.evalNodeT (Diagram.realAlgebra K) p fuel) acc cs =
            some (acc + (cs.map (fun c => E p (varsOf l) (ind K (D c.1)) w * E p (varsOf r) (ind K (D c.2)) w)).sum) := by
          induction cs with
          | nil => intro acc; simp [Diagram.foldChildren]
          | cons c cs ihc =>
            intro acc
            obtain ⟨a1, a2⟩ := hrec c (by simp)
            simp only [Diagram.foldChildren, a1, a2]
            rw [ihc (fun c' hc' => hrec c' (by simp [hc']))]
            simp only [Diagram.realAlgebra, List.map_cons, List.sum_cons]
            congr 1; ring
        exact gen 0
      have hz : (Diagram.realAlgebra K).zero = 0 := rfl
      rw [hz, hfold, ev, zero_add]
      congr 1
      have e1 : ∀ w, ind K (D n) w = (cs.map (fun c => ind K (D c.1) w * ind K (D c.2) w)).sum := by
        intro w
        rw [← ind_any K (P := D) (S := D) (by rw [hco.one w])]
        simp only [ind, hden w]
      rw [E_congr e1, E_sum (fun (c : Nat × Nat) w => ind K (D c.1) w * ind K (D c.2) w)]
      congr 1
      apply List.map_congr_left
      intro c hc
      rw [E_prod (den_dep h c.1 l (hco.primes c hc) (hl.trans hsT)).ind (den_dep h c.2 r (hco.subs c hc) (hr.trans hsT)).ind
        (fun v hv hv' => hdisj v hv' v hv rfl)]

/-! ### The specification -/

theorem E_prob {p : Nat → K} {F : (Nat → Bool) → K} : ∀ (vs : List Nat) (w : Nat → Bool), vs.Nodup →
    E p vs F w = ∑ S ∈ vs.toFinset.powerset, (∏ x ∈ S, p x) * (∏ x ∈ vs.toFinset \ S, (1 - p x)) *
      F (fun u => if u ∈ vs then decide (u ∈ S) else w u)
  | [], w, _ => by simp [E]
  | v :: vs, w, nd => by
    obtain ⟨hv, nd'⟩ := List.nodup_cons.1 nd
    have hv' : v ∉ vs.toFinset := by simpa using hv
    simp only [E, E_prob vs _ nd', List.toFinset_cons]
    rw [Finset.sum_powerset_insert hv', add_comm, Finset.mul_sum, Finset.mul_sum]
    congr 1
    · apply Finset.sum_congr rfl
      intro S hS
      rw [Finset.mem_powerset] at hS
      have hvS : v ∉ S := fun h => hv' (hS h)
      rw [Finset.insert_sdiff_of_notMem _ hvS, Finset.prod_insert (by simp [hv])]
      have : (fun u => if u ∈ vs then decide (u ∈ S) else upd w v false u) = (fun u => if u ∈ v :: vs then decide (u ∈ S) else w u) := by
        funext u
        by_cases e : u = v
        · subst e; simp [hv, upd, hvS]
        · simp [e, upd]
      rw [this]; ring
    · apply Finset.sum_congr rfl
      intro S hS
      rw [Finset.mem_powerset] at hS
      have hvS : v ∉ S := fun h => hv' (hS h)
      rw [Finset.prod_insert hvS, Finset.insert_sdiff_insert, Finset.sdiff_insert_of_notMem hv']
      have : (fun u => if u ∈ vs then decide (u ∈ S) else upd w v true u) = (fun u => if u ∈ v :: vs then decide (u ∈ insert v S) else w u) := by
        funext u
        by_cases e : u = v
        · subst e; simp [hv, upd]
        · simp [e, upd]
      rw [this]; ring

theorem E_boolForm {p : Nat → K} {vs : List Nat} (nd : vs.Nodup) (f : BoolForm) :
    E p vs (ind K (fun w => f.eval w)) (fun _ => false) = f.prob p vs.toFinset := by
  rw [E_prob vs _ nd, BoolForm.prob]
  apply Finset.sum_congr rfl
  intro S hS
  rw [Finset.mem_powerset] at hS
  have : (fun u => if u ∈ vs then decide (u ∈ S) else false) = fun u => decide (u ∈ S) := by
    funext u
    by_cases h : u ∈ vs
    · simp [h]
    · have : u ∉ S := fun hu => h (by simpa using hS hu)
      simp [h, this]
  rw [this]
  simp only [ind]
  split <;> simp

end Sdd

end Scallop
