import Verif.Spec.Destruct

/-!
# Patterns in arguments: lemmas
-/

namespace Scallop.Destr

variable {E V : Type} {adm : E → V → Prop} {DB : String → List V → Prop}

mutual
theorem argOf_le (p : Nat) : ∀ (a : Arg E) (n : Nat), n ≤ (argOf p a n).2.2
  | .expr e, n => by simp [argOf]
  | .destr _ f args, n => by
    have := argsOf_le p args (n + 1)
    simp only [argOf]
    omega
theorem argsOf_le (p : Nat) : ∀ (as : List (Arg E)) (n : Nat), n ≤ (argsOf p as n).2.2
  | [], n => by simp [argsOf]
  | a :: as, n => Nat.le_trans (argOf_le p a n) (argsOf_le p as _)
end

/-! ### What holds matches -/

mutual
theorem argOf_sound (σ : Var → V) (p : Nat) : ∀ (a : Arg E) (n : Nat) (v : V), (∀ o ∈ (argOf p a n).2.1, o.Holds adm DB σ) →
    (argOf p a n).1.Adm adm σ v → Matches adm DB a v
  | .expr e, n, v, _, h => h
  | .destr _ f args, n, v, ho, h => by
    simp only [argOf, List.mem_append, List.mem_singleton] at ho
    obtain ⟨vs, hdb, hargs⟩ := ho _ (.inr rfl)
    obtain ⟨w, ws, hw, hws, rfl⟩ := List.forall₂_cons_left_iff.mp hargs
    simp only [argOf, Out.Adm] at h hw
    obtain rfl := hw.symm.trans h
    exact ⟨ws, hdb, argsOf_sound σ p args (n + 1) ws (fun o hm => ho o (.inl hm)) hws⟩
theorem argsOf_sound (σ : Var → V) (p : Nat) : ∀ (as : List (Arg E)) (n : Nat) (vs : List V), (∀ o ∈ (argsOf p as n).2.1, o.Holds adm DB σ) →
    List.Forall₂ (Out.Adm adm σ) (argsOf p as n).1 vs → Matches.all adm DB as vs
  | [], n, vs, _, h => by
    cases h
    trivial
  | a :: as, n, vs, ho, h => by
    simp only [argsOf, List.mem_append] at ho
    obtain ⟨w, ws, hw, hws, rfl⟩ := List.forall₂_cons_left_iff.mp h
    exact ⟨argOf_sound σ p a n w (fun o hm => ho o (.inl hm)) hw, argsOf_sound σ p as _ ws (fun o hm => ho o (.inr hm)) hws⟩
end

theorem rootArgs_sound (σ : Var → V) : ∀ (as : List (Arg E)) (n : Nat) (vs : List V), (∀ o ∈ (rootArgs as n).2, o.Holds adm DB σ) →
    List.Forall₂ (Out.Adm adm σ) (rootArgs as n).1 vs → Matches.all adm DB as vs
  | [], n, vs, _, h => by
    cases h
    trivial
  | .expr e :: as, n, vs, ho, h => by
    obtain ⟨w, ws, hw, hws, rfl⟩ := List.forall₂_cons_left_iff.mp h
    exact ⟨hw, rootArgs_sound σ as n ws ho hws⟩
  | .destr id f args :: as, n, vs, ho, h => by
    simp only [rootArgs, List.mem_append, List.mem_singleton] at ho
    obtain ⟨w, ws, hw, hws, rfl⟩ := List.forall₂_cons_left_iff.mp h
    obtain ⟨us, hdb, hargs⟩ := ho _ (.inl (.inr rfl))
    obtain ⟨u, us, hu, hus, rfl⟩ := List.forall₂_cons_left_iff.mp hargs
    simp only [Out.Adm] at hw hu
    obtain rfl := hu.symm.trans hw
    exact ⟨⟨us, hdb, argsOf_sound σ id args n us (fun o hm => ho o (.inl (.inl hm))) hus⟩,
      rootArgs_sound σ as _ ws (fun o hm => ho o (.inr hm)) hws⟩

/-! ### What matches can be made to hold -/

mutual
theorem argOf_complete [Inhabited V] (p : Nat) : ∀ (a : Arg E) (n : Nat) (v : V), Matches adm DB a v →
    ∃ s : Nat → V, ∀ σ : Var → V, (∀ k, n ≤ k → k < (argOf p a n).2.2 → σ (.sub p k) = s k) →
      (∀ o ∈ (argOf p a n).2.1, o.Holds adm DB σ) ∧ (argOf p a n).1.Adm adm σ v
  | .expr e, n, v, h => ⟨fun _ => default, fun σ _ => ⟨by simp [argOf], h⟩⟩
  | .destr _ f args, n, v, ⟨vs, hdb, hall⟩ => by
    obtain ⟨s, hs⟩ := argsOf_complete p args (n + 1) vs hall
    have hle := argsOf_le p args (n + 1)
    refine ⟨fun k => if k = n then v else s k, fun σ hσ => ?_⟩
    simp only [argOf] at hσ ⊢
    have hv : σ (.sub p n) = v := by simpa using hσ n (Nat.le_refl n) (by omega)
    obtain ⟨h1, h2⟩ := hs σ (fun k hk hk' => by
      rw [hσ k (by omega) hk', if_neg (by omega)])
    refine ⟨fun o ho => ?_, hv⟩
    rcases List.mem_append.mp ho with ho | ho
    · exact h1 o ho
    · rw [List.mem_singleton] at ho
      subst ho
      exact ⟨v :: vs, hdb, .cons hv h2⟩
theorem argsOf_complete [Inhabited V] (p : Nat) : ∀ (as : List (Arg E)) (n : Nat) (vs : List V), Matches.all adm DB as vs →
    ∃ s : Nat → V, ∀ σ : Var → V, (∀ k, n ≤ k → k < (argsOf p as n).2.2 → σ (.sub p k) = s k) →
      (∀ o ∈ (argsOf p as n).2.1, o.Holds adm DB σ) ∧ List.Forall₂ (Out.Adm adm σ) (argsOf p as n).1 vs
  | [], n, [], h => ⟨fun _ => default, fun σ _ => ⟨by simp [argsOf], .nil⟩⟩
  | [], n, _ :: _, h => h.elim
  | _ :: _, n, [], h => h.elim
  | a :: as, n, v :: vs, ⟨ha, has⟩ => by
    obtain ⟨s, hs⟩ := argOf_complete p a n v ha
    obtain ⟨t, ht⟩ := argsOf_complete p as (argOf p a n).2.2 vs has
    have h1 := argOf_le p a n
    have h2 := argsOf_le p as (argOf p a n).2.2
    refine ⟨fun k => if k < (argOf p a n).2.2 then s k else t k, fun σ hσ => ?_⟩
    simp only [argsOf] at hσ ⊢
    obtain ⟨ho, hv⟩ := hs σ (fun k hk hk' => by rw [hσ k hk (by omega), if_pos hk'])
    obtain ⟨ho', hvs⟩ := ht σ (fun k hk hk' => by rw [hσ k (by omega) hk', if_neg (by omega)])
    exact ⟨fun o hm => (List.mem_append.mp hm).elim (ho o) (ho' o), .cons hv hvs⟩
end

theorem rootArgs_complete [Inhabited V] : ∀ (as : List (Arg E)) (n : Nat) (vs : List V), (ids as).Nodup → Matches.all adm DB as vs →
    ∃ (s r : Nat → V), ∀ σ : Var → V, (∀ p k, n ≤ k → σ (.sub p k) = s k) → (∀ id ∈ ids as, σ (.root id) = r id) →
      (∀ o ∈ (rootArgs as n).2, o.Holds adm DB σ) ∧ List.Forall₂ (Out.Adm adm σ) (rootArgs as n).1 vs
  | [], n, [], _, h => ⟨fun _ => default, fun _ => default, fun σ _ _ => ⟨by simp [rootArgs], .nil⟩⟩
  | [], n, _ :: _, _, h => h.elim
  | .expr _ :: _, n, [], _, h => h.elim
  | .destr .. :: _, n, [], _, h => h.elim
  | .expr e :: as, n, v :: vs, hn, ⟨ha, has⟩ => by
    obtain ⟨s, r, hs⟩ := rootArgs_complete as n vs hn has
    refine ⟨s, r, fun σ h1 h2 => ?_⟩
    obtain ⟨ho, hv⟩ := hs σ h1 h2
    exact ⟨ho, .cons ha hv⟩
  | .destr id f args :: as, n, v :: vs, hn, ⟨⟨us, hdb, hall⟩, has⟩ => by
    simp only [ids, List.nodup_cons] at hn
    obtain ⟨s, hs⟩ := argsOf_complete id args n us hall
    obtain ⟨t, r, ht⟩ := rootArgs_complete as (argsOf id args n).2.2 vs hn.2 has
    have hle := argsOf_le id args n
    refine ⟨fun k => if k < (argsOf id args n).2.2 then s k else t k, fun i => if i = id then v else r i, fun σ h1 h2 => ?_⟩
    beta_reduce at h1 h2
    have hv : σ (.root id) = v := by simpa using h2 id (by simp [ids])
    obtain ⟨ho, hus⟩ := hs σ (fun k hk hk' => by rw [h1 id k hk, if_pos hk'])
    obtain ⟨ho', hvs⟩ := ht σ (fun p k hk => by rw [h1 p k (by omega), if_neg (by omega)])
      (fun i hi => by rw [h2 i (by simp [ids, hi]), if_neg (fun h : i = id => hn.1 (h ▸ hi))])
    refine ⟨fun o hm => ?_, .cons hv hvs⟩
    simp only [rootArgs, List.mem_append, List.mem_singleton] at hm
    rcases hm with (hm | rfl) | hm
    · exact ho o hm
    · exact ⟨v :: us, hdb, .cons hv hus⟩
    · exact ho' o hm

theorem rootArgs_iff [Inhabited V] (as : List (Arg E)) (hn : (ids as).Nodup) (vs : List V) :
    (∃ σ : Var → V, (∀ o ∈ (rootArgs as 0).2, o.Holds adm DB σ) ∧ List.Forall₂ (Out.Adm adm σ) (rootArgs as 0).1 vs) ↔ Matches.all adm DB as vs := by
  constructor
  · rintro ⟨σ, h1, h2⟩
    exact rootArgs_sound σ as 0 vs h1 h2
  · intro h
    obtain ⟨s, r, hs⟩ := rootArgs_complete as 0 vs hn h
    exact ⟨fun x => match x with | .root i => r i | .sub _ k => s k, hs _ (fun _ _ _ => rfl) (fun _ _ => rfl)⟩

/-! ### Facts -/

theorem factArgs_sound (c : E → Bool) (σ : Var → V) : ∀ (as : List (Arg E)) (i : Nat) (vs : List V), (∀ o ∈ (factArgs c as i).2, o.Holds adm DB σ) →
    List.Forall₂ (Out.Adm adm σ) (factArgs c as i).1 vs → Matches.all adm DB as vs
  | [], i, vs, _, h => by
    cases h
    trivial
  | .expr e :: as, i, vs, ho, h => by
    simp only [factArgs] at ho h
    split at ho
    · rename_i hc
      rw [if_pos hc] at h
      obtain ⟨w, ws, hw, hws, rfl⟩ := List.forall₂_cons_left_iff.mp h
      exact ⟨hw, factArgs_sound c σ as (i + 1) ws ho hws⟩
    · rename_i hc
      rw [if_neg hc] at h
      obtain ⟨w, ws, hw, hws, rfl⟩ := List.forall₂_cons_left_iff.mp h
      have he := ho _ List.mem_cons_self
      simp only [Out.Adm] at hw
      subst hw
      exact ⟨he, factArgs_sound c σ as (i + 1) ws (fun o hm => ho o (List.mem_cons_of_mem _ hm)) hws⟩
  | .destr id f args :: as, i, vs, ho, h => by
    simp only [factArgs, List.mem_append, List.mem_map, List.mem_singleton] at ho
    obtain ⟨w, ws, hw, hws, rfl⟩ := List.forall₂_cons_left_iff.mp h
    obtain ⟨us, hdb, hargs⟩ := ho _ (.inl ⟨_, .inr rfl, rfl⟩)
    obtain ⟨u, us, hu, hus, rfl⟩ := List.forall₂_cons_left_iff.mp hargs
    simp only [Out.Adm] at hw hu
    obtain rfl := hu.symm.trans hw
    exact ⟨⟨us, hdb, argsOf_sound σ i args 0 us (fun o hm => ho (.atom o) (.inl ⟨o, .inl hm, rfl⟩)) hus⟩,
      factArgs_sound c σ as (i + 1) ws (fun o hm => ho o (.inr hm)) hws⟩

theorem factArgs_complete [Inhabited V] (c : E → Bool) : ∀ (as : List (Arg E)) (i : Nat) (vs : List V), Matches.all adm DB as vs →
    ∃ (s : Nat → Nat → V) (r : Nat → V), ∀ σ : Var → V, (∀ j k, i ≤ j → σ (.sub j k) = s j k) → (∀ j, i ≤ j → σ (.root j) = r j) →
      (∀ o ∈ (factArgs c as i).2, o.Holds adm DB σ) ∧ List.Forall₂ (Out.Adm adm σ) (factArgs c as i).1 vs
  | [], i, [], h => ⟨fun _ _ => default, fun _ => default, fun σ _ _ => ⟨by simp [factArgs], .nil⟩⟩
  | [], i, _ :: _, h => h.elim
  | .expr _ :: _, i, [], h => h.elim
  | .destr .. :: _, i, [], h => h.elim
  | .expr e :: as, i, v :: vs, ⟨ha, has⟩ => by
    obtain ⟨s, r, hs⟩ := factArgs_complete c as (i + 1) vs has
    refine ⟨s, fun j => if j = i then v else r j, fun σ h1 h2 => ?_⟩
    beta_reduce at h2
    have hv : σ (.root i) = v := by simpa using h2 i (Nat.le_refl i)
    obtain ⟨ho, hvs⟩ := hs σ (fun j k hj => h1 j k (by omega)) (fun j hj => by rw [h2 j (by omega), if_neg (by omega)])
    simp only [factArgs]
    split
    · exact ⟨ho, .cons ha hvs⟩
    · refine ⟨fun o hm => ?_, .cons hv hvs⟩
      rcases List.mem_cons.mp hm with rfl | hm
      · simp only [Lit.Holds, hv]
        exact ha
      · exact ho o hm
  | .destr id f args :: as, i, v :: vs, ⟨⟨us, hdb, hall⟩, has⟩ => by
    obtain ⟨t, ht⟩ := argsOf_complete i args 0 us hall
    obtain ⟨s, r, hs⟩ := factArgs_complete c as (i + 1) vs has
    refine ⟨fun j k => if j = i then t k else s j k, fun j => if j = i then v else r j, fun σ h1 h2 => ?_⟩
    beta_reduce at h1 h2
    have hv : σ (.root i) = v := by simpa using h2 i (Nat.le_refl i)
    obtain ⟨ho, hus⟩ := ht σ (fun k _ _ => by rw [h1 i k (Nat.le_refl i), if_pos rfl])
    obtain ⟨ho', hvs⟩ := hs σ (fun j k hj => by rw [h1 j k (by omega), if_neg (by omega)]) (fun j hj => by rw [h2 j (by omega), if_neg (by omega)])
    refine ⟨fun o hm => ?_, .cons hv hvs⟩
    simp only [factArgs, List.mem_append, List.mem_map, List.mem_singleton] at hm
    rcases hm with ⟨o, hm | rfl, rfl⟩ | hm
    · exact ho o hm
    · exact ⟨v :: us, hdb, .cons hv hus⟩
    · exact ho' o hm

end Scallop.Destr
