import Verif.Spec.Strata

/-!
# Layered programs have exactly one model
-/

namespace Scallop.Plan

variable {T : Type} {L : Layer T} {facts J X Y : Interp T}

/-- The rules of a layer derive more from more. -/
def Layer.Mono (L : Layer T) (J : Interp T) : Prop :=
  ∀ d ∈ L.defs, ∀ X Y : Interp T, (∀ p ∈ L.names, ∀ t, X p t → Y p t) → ∀ t, d.gen (patch L.names X J) t → d.gen (patch L.names Y J) t

/-- The rules of a layer add to relations of the layer. -/
def Layer.Own (L : Layer T) : Prop := ∀ d ∈ L.defs, d.target ∈ L.names

/-- The least closed interpretation. -/
def Layer.lfp (L : Layer T) (facts J : Interp T) : Interp T := fun p t => ∀ X, L.Closed facts J X → X p t

/-- The relations of the layer get their least closed contents, the others are left as they are. -/
def Layer.solve (L : Layer T) (facts J : Interp T) : Interp T := patch L.names (L.lfp facts J) J

theorem patch_in {D : List String} {p : String} (h : p ∈ D) (t : T) : patch D X J p t ↔ X p t := by simp [patch, h]
theorem patch_out {D : List String} {p : String} (h : p ∉ D) (t : T) : patch D X J p t ↔ J p t := by simp [patch, h]

theorem patch_self (D : List String) : patch D J J = J := by
  funext p t
  by_cases h : p ∈ D
  · exact propext (patch_in h t)
  · exact propext (patch_out h t)

theorem patch_eq {D : List String} {K : Interp T} (h1 : ∀ p ∈ D, ∀ t, K p t ↔ X p t) (h2 : ∀ p, p ∉ D → ∀ t, K p t ↔ J p t) : K = patch D X J := by
  funext p t
  by_cases h : p ∈ D
  · exact propext ((h1 p h t).trans (patch_in h t).symm)
  · exact propext ((h2 p h t).trans (patch_out h t).symm)

theorem lfp_closed (hm : L.Mono J) : L.Closed facts J (L.lfp facts J) := by
  refine ⟨fun p hp t ht X hX => hX.1 p hp t ht, fun d hd t ht X hX => ?_⟩
  exact hX.2 d hd t (hm d hd _ _ (fun p _ t h => h X hX) t ht)

/-- What is in the least closed interpretation is a fact or derived. -/
theorem lfp_fix (hm : L.Mono J) (ho : L.Own) {p : String} (hp : p ∈ L.names) (t : T) :
    L.lfp facts J p t ↔ facts p t ∨ ∃ d ∈ L.defs, d.target = p ∧ d.gen (L.solve facts J) t := by
  constructor
  · intro h
    refine h (fun p t => facts p t ∨ ∃ d ∈ L.defs, d.target = p ∧ d.gen (L.solve facts J) t) ⟨fun p _ t ht => Or.inl ht, ?_⟩
    intro d hd t ht
    refine Or.inr ⟨d, hd, rfl, hm d hd _ _ ?_ t ht⟩
    intro p hp t ht X hX
    rcases ht with ht | ⟨d, hd, rfl, ht⟩
    · exact hX.1 p hp t ht
    · exact (lfp_closed hm).2 d hd t ht X hX
  · rintro (h | ⟨d, hd, rfl, h⟩)
    · exact (lfp_closed hm).1 p hp t h
    · exact (lfp_closed hm).2 d hd t h

/-- In a model every relation holds its facts and what is derived for it. -/
theorem model_fix (hm : L.Mono J) (ho : L.Own) (hJ : ∀ p ∈ L.names, ∀ t, J p t ↔ L.lfp facts J p t) {p : String} (hp : p ∈ L.names) (t : T) :
    J p t ↔ facts p t ∨ ∃ d ∈ L.defs, d.target = p ∧ d.gen J t := by
  have : J = L.solve facts J := patch_eq hJ (fun _ _ _ => Iff.rfl)
  rw [hJ p hp t, lfp_fix hm ho hp t, ← this]

/-! ## Existence and uniqueness -/

/-- The rules of a layer look only at relations in `D`. -/
def Layer.Looks (L : Layer T) (D : List String) : Prop :=
  ∀ d ∈ L.defs, ∀ J J' : Interp T, (∀ p ∈ D, ∀ t, J p t ↔ J' p t) → ∀ t, d.gen J t ↔ d.gen J' t

/-- Every layer defines relations of its own, looks only at relations defined there or before, and derives more from more of its own relations. -/
def Layered : List String → List (Layer T) → Prop
  | _, [] => True
  | D, L :: Ls => L.Own ∧ (∀ p ∈ L.names, p ∉ D) ∧ L.Looks (D ++ L.names) ∧ (∀ J, L.Mono J) ∧ Layered (D ++ L.names) Ls

theorem closed_congr {D : List String} (hl : L.Looks (D ++ L.names)) {J'} (h : ∀ p ∈ D, ∀ t, J p t ↔ J' p t) :
    L.Closed facts J X → L.Closed facts J' X := by
  rintro ⟨h1, h2⟩
  refine ⟨h1, fun d hd t ht => h2 d hd t ((hl d hd _ _ ?_ t).mp ht)⟩
  intro p hp t
  by_cases hn : p ∈ L.names
  · rw [patch_in hn, patch_in hn]
  · rw [patch_out hn, patch_out hn]
    rcases List.mem_append.mp hp with hp | hp
    · exact (h p hp t).symm
    · exact absurd hp hn

/-- Two models of a layered program agree on the relations it defines. -/
theorem model_unique {facts : Interp T} : ∀ {Ls : List (Layer T)} {D : List String} {J J' : Interp T}, Layered D Ls → StratModel facts Ls J → StratModel facts Ls J' →
    (∀ p ∈ D, ∀ t, J p t ↔ J' p t) → ∀ L ∈ Ls, ∀ p ∈ L.names, ∀ t, J p t ↔ J' p t
  | [], _, _, _, _, _, _, _, L, hL => by simp at hL
  | L :: Ls, D, J, J', ⟨_, _, hl, _, hrest⟩, hJ, hJ', hD, L', hL' => by
    have h1 : ∀ p ∈ L.names, ∀ t, J p t ↔ J' p t := by
      intro p hp t
      rw [hJ L (by simp) p hp t, hJ' L (by simp) p hp t]
      exact ⟨fun h X hX => h X (closed_congr hl (fun p hp t => (hD p hp t).symm) hX), fun h X hX => h X (closed_congr hl hD hX)⟩
    rcases List.mem_cons.mp hL' with rfl | hL'
    · exact h1
    · refine model_unique hrest (fun L h => hJ L (by simp [h])) (fun L h => hJ' L (by simp [h])) ?_ L' hL'
      intro p hp t
      rcases List.mem_append.mp hp with hp | hp
      · exact hD p hp t
      · exact h1 p hp t

/-- Solving layer after layer. -/
def solveAll (facts : Interp T) : List (Layer T) → Interp T → Interp T
  | [], J => J
  | L :: Ls, J => solveAll facts Ls (L.solve facts J)

theorem solveAll_keeps {facts : Interp T} : ∀ {Ls : List (Layer T)} {D : List String} {J : Interp T}, Layered D Ls → ∀ p ∈ D, ∀ t, solveAll facts Ls J p t ↔ J p t
  | [], _, _, _, _, _, _ => Iff.rfl
  | L :: Ls, D, J, ⟨_, hd, _, _, hrest⟩, p, hp, t => by
    rw [solveAll, solveAll_keeps hrest p (by simp [hp]) t]
    exact patch_out (fun h => hd p h hp) t

/-- Every layered program has a model that leaves the relations it does not define as they are. -/
theorem model_exists {facts : Interp T} : ∀ {Ls : List (Layer T)} {D : List String} {J : Interp T}, Layered D Ls → StratModel facts Ls (solveAll facts Ls J)
  | [], _, _, _, L, hL => by simp at hL
  | L :: Ls, D, J, ⟨ho, hd, hl, hm, hrest⟩, L', hL' => by
    rcases List.mem_cons.mp hL' with rfl | hL'
    · intro p hp t
      rw [solveAll, solveAll_keeps hrest p (by simp [hp]) t, Layer.solve, patch_in hp]
      have hD : ∀ p ∈ D, ∀ t, solveAll facts Ls (L'.solve facts J) p t ↔ J p t := by
        intro q hq t
        rw [solveAll_keeps hrest q (by simp [hq]) t]
        exact patch_out (fun h => hd q h hq) t
      exact ⟨fun h X hX => h X (closed_congr hl hD hX), fun h X hX => h X (closed_congr hl (fun p hp t => (hD p hp t).symm) hX)⟩
    · exact model_exists hrest L' hL'

end Scallop.Plan
