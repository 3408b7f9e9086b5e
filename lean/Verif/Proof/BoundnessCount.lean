import Verif.Proof.BoundnessFinite
import Verif.Spec.Back
import Mathlib.Algebra.BigOperators.Ring.List

/-!
# Boundness analysis: how many facts accepted rules derive
-/

namespace Scallop.Front

variable {F : Type} {X : Ext F} {H : Set (Name → Val F)} {D : DB F} {G : Aggs F} {V : Name → Prop} {B : Bindings}

mutual
theorem sub_cancels {σ : Name → Val F} : ∀ (e : FExpr F), e.SumsCancel X σ → ∀ q e', e.sub q = some e' → e'.SumsCancel X σ
  | e, hc, [], e', h => by rw [sub_nil] at h; cases h; exact hc
  | .const _, _, _ :: _, _, h => by simp [FExpr.sub] at h
  | .var _, _, _ :: _, _, h => by simp [FExpr.sub] at h
  | .wild, _, _ :: _, _, h => by simp [FExpr.sub] at h
  | .bin op a b, hc, i :: q, e', h => by
    simp only [FExpr.SumsCancel] at hc
    match i, h with
    | 0, h => exact sub_cancels a hc.1 q e' (by simpa [FExpr.sub] using h)
    | 1, h => exact sub_cancels b hc.2.1 q e' (by simpa [FExpr.sub] using h)
    | _ + 2, h => simp [FExpr.sub] at h
  | .un op a, hc, i :: q, e', h => by
    simp only [FExpr.SumsCancel] at hc
    match i, h with
    | 0, h => exact sub_cancels a hc q e' (by simpa [FExpr.sub] using h)
    | _ + 1, h => simp [FExpr.sub] at h
  | .ite c t e, hc, i :: q, e', h => by
    simp only [FExpr.SumsCancel] at hc
    match i, h with
    | 0, h => exact sub_cancels c hc.1 q e' (by simpa [FExpr.sub] using h)
    | 1, h => exact sub_cancels t hc.2.1 q e' (by simpa [FExpr.sub] using h)
    | 2, h => exact sub_cancels e hc.2.2 q e' (by simpa [FExpr.sub] using h)
    | _ + 3, h => simp [FExpr.sub] at h
  | .call f args, hc, i :: q, e', h => by
    simp only [FExpr.SumsCancel] at hc
    exact subAll_cancels args hc i q e' (by simpa [FExpr.sub] using h)
  | .new f args, hc, i :: q, e', h => by
    simp only [FExpr.SumsCancel] at hc
    exact subAll_cancels args hc i q e' (by simpa [FExpr.sub] using h)
theorem subAll_cancels {σ : Name → Val F} : ∀ (es : List (FExpr F)), FExpr.AllSumsCancel X σ es → ∀ i q e', FExpr.subAll es i q = some e' → e'.SumsCancel X σ
  | [], _, i, q, e', h => by simp [FExpr.subAll] at h
  | e :: es, hc, 0, q, e', h => by
    simp only [FExpr.AllSumsCancel] at hc
    exact sub_cancels e hc.1 q e' (by simpa [FExpr.subAll] using h)
  | e :: es, hc, i + 1, q, e', h => by
    simp only [FExpr.AllSumsCancel] at hc
    exact subAll_cancels es hc.2 i q e' (by simpa [FExpr.subAll] using h)
end

theorem allSumsCancel_mem {σ : Name → Val F} : ∀ (es : List (FExpr F)), FExpr.AllSumsCancel X σ es → ∀ e ∈ es, e.SumsCancel X σ
  | [], _, e, he => by simp at he
  | e :: es, h, e', he => by
    simp only [FExpr.AllSumsCancel] at h
    rcases List.mem_cons.1 he with rfl | he
    · exact h.1
    · exact allSumsCancel_mem es h.2 e' he

theorem formulaCancel_mem {σ : Name → Val F} : ∀ (fs : List (Formula F)), Formula.SumsCancel.allSumsCancel X σ fs → ∀ f ∈ fs, f.SumsCancel X σ
  | [], _, e, he => by simp at he
  | e :: es, h, e', he => by
    simp only [Formula.SumsCancel.allSumsCancel] at h
    rcases List.mem_cons.1 he with rfl | he
    · exact h.1
    · exact formulaCancel_mem es h.2 e' he

theorem rev_one (hX : X.Proper) (hH : ∀ σ ∈ H, ∀ x, (σ x).Proper) (e : FExpr F) (ho : e.Ordinary) (hd : Defined X H e)
    (hc : ∀ σ ∈ H, e.SumsCancel X σ) : Rev .one X H e := by
  intro q op a b hq hop
  obtain ⟨ho', hd'⟩ := sub_defined e ho hd q _ hq
  have hop' : op = .add ∨ op = .sub := by cases op <;> simp [isAddSub] at hop <;> simp
  simp only [FExpr.Ordinary] at ho'
  have key : ∀ σ ∈ H, ∃ x y z, a.EvalsTo X σ x ∧ b.EvalsTo X σ y ∧ evalBin X .run op x y = .ok z ∧ (FExpr.bin op a b).EvalsTo X σ z ∧ Cancels X op x y := by
    intro σ hσ
    obtain ⟨z, hz⟩ := hd' σ hσ
    have hz' := hz
    simp only [FExpr.EvalsTo] at hz
    obtain ⟨x, y, h1, h2, h3⟩ := hz
    have := sub_cancels e (hc σ hσ) q _ hq
    simp only [FExpr.SumsCancel] at this
    exact ⟨x, y, z, h1, h2, h3, hz', this.2.2 hop' x y h1 h2⟩
  constructor
  · rintro ha he v ⟨σ, hσ, hv⟩ w ⟨τ, hτ, hw⟩
    obtain ⟨x, y, z, h1, h2, h3, h4, h5⟩ := key σ hσ
    obtain ⟨x', y', z', h1', h2', h3', h4', h5'⟩ := key τ hτ
    have ex : x = x' := ha ⟨σ, hσ, h1⟩ ⟨τ, hτ, h1'⟩
    have ez : z = z' := he ⟨σ, hσ, h4⟩ ⟨τ, hτ, h4'⟩
    subst ex ez
    rw [evalsTo_unique b ho'.2 v y hv h2, evalsTo_unique b ho'.2 w y' hw h2']
    exact (h5.2 y' (evalsTo_proper hX (hH τ hτ) b ho'.2 y' h2') (by rw [h3, h3'])).symm
  · rintro ha he v ⟨σ, hσ, hv⟩ w ⟨τ, hτ, hw⟩
    obtain ⟨x, y, z, h1, h2, h3, h4, h5⟩ := key σ hσ
    obtain ⟨x', y', z', h1', h2', h3', h4', h5'⟩ := key τ hτ
    have ex : y = y' := ha ⟨σ, hσ, h2⟩ ⟨τ, hτ, h2'⟩
    have ez : z = z' := he ⟨σ, hσ, h4⟩ ⟨τ, hτ, h4'⟩
    subst ex ez
    rw [evalsTo_unique a ho'.1 v x hv h1, evalsTo_unique a ho'.1 w x' hw h1']
    exact (h5.1 x' (evalsTo_proper hX (hH τ hτ) a ho'.1 x' h1') (by rw [h3, h3'])).symm

theorem eq_true {x y : Val F} (hX : X.ExactFloats) (h : evalBin X .run .eq x y = .ok (.bool true)) : x = y := by
  cases x <;> cases y <;> simp_all [evalBin, evalInt, evalFloat]
  all_goals first | grind | skip
  rename_i k a k' b
  by_cases hk : k = k'
  · rw [if_pos hk] at h; simp at h; exact ⟨hk, (hX a b).1 h⟩
  · rw [if_neg hk] at h; cases h

theorem reveq_one (hX : X.ExactFloats) {a b : FExpr F} (oa : a.Ordinary) (ob : b.Ordinary) (hd : ∀ σ ∈ H, (FExpr.bin .eq a b).EvalsTo X σ (.bool true)) :
    RevEq .one X H a b := by
  have key : ∀ σ ∈ H, ∃ x, a.EvalsTo X σ x ∧ b.EvalsTo X σ x := by
    intro σ hσ
    have hz := hd σ hσ
    simp only [FExpr.EvalsTo] at hz
    obtain ⟨x, y, h1, h2, h3⟩ := hz
    have := eq_true hX h3
    subst this
    exact ⟨x, h1, h2⟩
  constructor
  · rintro ha v ⟨σ, hσ, hv⟩ w ⟨τ, hτ, hw⟩
    obtain ⟨x, h1, h2⟩ := key σ hσ
    obtain ⟨y, h3, h4⟩ := key τ hτ
    rw [evalsTo_unique b ob v x hv h2, evalsTo_unique b ob w y hw h4]
    exact ha ⟨σ, hσ, h1⟩ ⟨τ, hτ, h3⟩
  · rintro ha v ⟨σ, hσ, hv⟩ w ⟨τ, hτ, hw⟩
    obtain ⟨x, h1, h2⟩ := key σ hσ
    obtain ⟨y, h3, h4⟩ := key τ hτ
    rw [evalsTo_unique a oa v x hv h1, evalsTo_unique a oa w y hw h3]
    exact ha ⟨σ, hσ, h2⟩ ⟨τ, hτ, h4⟩

/-! ## Matching atoms -/

/-- The facts of relations and the results of foreign predicates are numbered. -/
structure Numbering (n : Nat) (B : Bindings) (D : DB F) where
  rel : String → Nat → Option (List (Val F))
  fgn : String → List (Val F) → Nat → Option (List (Val F))
  rel_ok : ∀ p, B p = none → ∀ vs, D p vs → ∃ m, m < n ∧ rel p m = some vs
  fgn_ok : ∀ p arity nb, B p = some (arity, nb) → ∀ vs : List (Val F), vs.length = nb → ∀ ws, D p (vs ++ ws) → ∃ m, m < n ∧ fgn p vs m = some ws

theorem exists_numbering {n : Nat} (h : SmallDB n B D) : Nonempty (Numbering n B D) := by
  classical
  have pick : ∀ P : List (Val F) → Prop, (∃ L : List (List (Val F)), L.length ≤ n ∧ ∀ vs, P vs → vs ∈ L) →
      ∃ g : Nat → Option (List (Val F)), ∀ vs, P vs → ∃ m, m < n ∧ g m = some vs := by
    rintro P ⟨L, h1, h2⟩
    refine ⟨fun m => L[m]?, fun vs hv => ?_⟩
    obtain ⟨m, hm, rfl⟩ := List.mem_iff_getElem.1 (h2 vs hv)
    exact ⟨m, by omega, List.getElem?_eq_getElem hm⟩
  choose R hR using fun (x : {p // B p = none}) => pick (D x.1) (h.relation x.1 x.2)
  choose W hW using fun (x : {q : String × List (Val F) // ∃ a, B q.1 = some (a, q.2.length)}) => pick (fun ws => D x.1.1 (x.1.2 ++ ws)) (by
    obtain ⟨a, ha⟩ := x.2
    exact h.foreign x.1.1 a _ ha x.1.2 rfl)
  refine ⟨⟨fun p m => if hp : B p = none then R ⟨p, hp⟩ m else none,
    fun p vs m => if hp : ∃ a, B p = some (a, vs.length) then W ⟨(p, vs), hp⟩ m else none, ?_, ?_⟩⟩
  · intro p hp vs hv
    obtain ⟨m, h1, h2⟩ := hR ⟨p, hp⟩ vs hv
    exact ⟨m, h1, by simp only [hp, dif_pos]; exact h2⟩
  · rintro p arity nb hp vs rfl ws hw
    obtain ⟨m, h1, h2⟩ := hW ⟨(p, vs), arity, hp⟩ ws hw
    refine ⟨m, h1, ?_⟩
    have hx : ∃ a, B p = some (a, vs.length) := ⟨arity, hp⟩
    simp only [hx, dif_pos]
    exact h2

/-- The formula is true with the `m`-th fact or result. -/
def Matches {n : Nat} (N : Numbering n B D) (X : Ext F) (σ : Name → Val F) (m : Nat) : Formula F → Prop
  | .atom p args => match B p with
    | none => ∃ vs, FExpr.AllEvalTo X σ args vs ∧ N.rel p m = some vs
    | some (_, nb) => ∃ xs ys, FExpr.AllEvalTo X σ (args.take nb) xs ∧ FExpr.AllEvalTo X σ (args.drop nb) ys ∧ N.fgn p xs m = some ys
  | _ => True

/-- How many ways there are to match one formula of a conjunction. -/
def cnt (n : Nat) (f : Formula F) : Nat := match f with | .atom _ _ => n | _ => 1

theorem matches_exists {n : Nat} (N : Numbering n B D) {σ : Name → Val F} (f : Formula F) (ho : f.Ordinary B) (hh : f.Holds X D G V σ) :
    ∃ m, m < cnt n f ∧ Matches N X σ m f := by
  cases f with
  | atom p args =>
    simp only [Formula.Holds] at hh
    obtain ⟨vs, h1, h2⟩ := hh
    simp only [Matches]
    cases hB : B p with
    | none =>
      obtain ⟨m, h3, h4⟩ := N.rel_ok p hB vs h2
      exact ⟨m, h3, vs, h1, h4⟩
    | some q =>
      obtain ⟨arity, nb⟩ := q
      simp only [Formula.Ordinary] at ho
      obtain ⟨o1, o2, _⟩ := ho.2 arity nb hB
      rw [← List.take_append_drop nb args] at h1
      obtain ⟨xs, ys, rfl, q3, q4⟩ := allEvalTo_append _ _ _ h1
      obtain ⟨m, h3, h4⟩ := N.fgn_ok p arity nb hB xs (by rw [allEvalTo_length _ _ q3, List.length_take]; omega) ys h2
      exact ⟨m, h3, xs, ys, q3, q4, h4⟩
  | _ => exact ⟨0, by simp [cnt], trivial⟩

theorem atom_one {n : Nat} (N : Numbering n B D) (p : String) (args : List (FExpr F)) (ho : (Formula.atom p args).Ordinary B) (m : Nat)
    (hm : ∀ σ ∈ H, Matches N X σ m (.atom p args)) : AtomSmall .one X H B p args := by
  simp only [Formula.Ordinary] at ho
  unfold AtomSmall
  split
  · rename_i hB
    simp only [Matches, hB] at hm
    rintro e he ho' v ⟨σ, hσ, hv⟩ w ⟨τ, hτ, hw⟩
    obtain ⟨vs, h1, h2⟩ := hm σ hσ
    obtain ⟨ws, h3, h4⟩ := hm τ hτ
    rw [h2, Option.some.injEq] at h4
    subst h4
    obtain ⟨i, hi, rfl⟩ := List.mem_iff_getElem.1 he
    obtain ⟨a, ha1, ha2⟩ := allEvalTo_get _ _ h1 i _ (List.getElem?_eq_getElem hi)
    obtain ⟨b, hb1, hb2⟩ := allEvalTo_get _ _ h3 i _ (List.getElem?_eq_getElem hi)
    rw [evalsTo_unique _ ho' _ _ hv ha2, evalsTo_unique _ ho' _ _ hw hb2]
    rw [ha1] at hb1
    exact Option.some.inj hb1
  · rename_i arity nb hB
    obtain ⟨_, _, o3⟩ := ho.2 arity nb hB
    simp only [Matches, hB] at hm
    rintro hin e he ho' v ⟨σ, hσ, hv⟩ w ⟨τ, hτ, hw⟩
    obtain ⟨xs, ys, h1, h2, h3⟩ := hm σ hσ
    obtain ⟨xs', ys', h1', h2', h3'⟩ := hm τ hτ
    have hx := values_all (K := .one) (X := X) (H := H) _ hin ⟨σ, hσ, h1⟩ ⟨τ, hτ, h1'⟩
    subst hx
    rw [h3, Option.some.injEq] at h3'
    subst h3'
    obtain ⟨i, hi, rfl⟩ := List.mem_iff_getElem.1 he
    obtain ⟨a, ha1, ha2⟩ := allEvalTo_get _ _ h2 i _ (List.getElem?_eq_getElem hi)
    obtain ⟨b, hb1, hb2⟩ := allEvalTo_get _ _ h2' i _ (List.getElem?_eq_getElem hi)
    rw [evalsTo_unique _ ho' _ _ hv ha2, evalsTo_unique _ ho' _ _ hw hb2]
    rw [ha1] at hb1
    exact Option.some.inj hb1

theorem form_one {n : Nat} (N : Numbering n B D) (hX : X.Proper) (hE : X.ExactFloats) (hH : ∀ σ ∈ H, ∀ x, (σ x).Proper) (f : Formula F) (ho : f.Ordinary B)
    (hh : ∀ σ ∈ H, f.Holds X D G V σ) (hc : ∀ σ ∈ H, f.SumsCancel X σ) (m : Nat) (hm : ∀ σ ∈ H, Matches N X σ m f) : FormSmall .one X H B f := by
  cases f with
  | atom pred args =>
    refine ⟨atom_one N pred args ho m hm, fun e he hoe => rev_one hX hH e hoe (fun σ hσ => ?_) (fun σ hσ => ?_)⟩
    · have := hh σ hσ
      simp only [Formula.Holds] at this
      obtain ⟨vs, h1, _⟩ := this
      obtain ⟨i, hi, rfl⟩ := List.mem_iff_getElem.1 he
      obtain ⟨w, _, hw⟩ := allEvalTo_get args vs h1 i _ (List.getElem?_eq_getElem hi)
      exact ⟨w, hw⟩
    · have := hc σ hσ
      simp only [Formula.SumsCancel] at this
      exact allSumsCancel_mem args this e he
  | constraint e =>
    simp only [Formula.Ordinary] at ho
    simp only [Formula.Holds] at hh
    simp only [Formula.SumsCancel] at hc
    refine ⟨rev_one hX hH e ho (fun σ hσ => ⟨_, hh σ hσ⟩) hc, ?_⟩
    rintro a b rfl
    simp only [FExpr.Ordinary] at ho
    exact reveq_one hE ho.1 ho.2 hh
  | _ => trivial

/-! ## Counting -/

/-- A set can be split into as many parts as there are ways to match a list of formulas, such that each is matched in one way in each part. -/
theorem split_parts {α β : Type} (cnt : β → Nat) (M : β → Nat → α → Prop) : ∀ (fs : List β) (S : Set α), (∀ f ∈ fs, ∀ x ∈ S, ∃ m, m < cnt f ∧ M f m x) →
    ∃ P : List (Set α), P.length ≤ (fs.map cnt).prod ∧ (∀ x ∈ S, ∃ T ∈ P, x ∈ T) ∧ ∀ T ∈ P, T ⊆ S ∧ ∀ f ∈ fs, ∃ m, ∀ x ∈ T, M f m x
  | [], S, _ => ⟨[S], by simp, by simp, by simp⟩
  | f :: fs, S, h => by
    obtain ⟨P, h1, h2, h3⟩ := split_parts cnt M fs S (fun g hg => h g (by simp [hg]))
    refine ⟨(List.range (cnt f)).flatMap (fun m => P.map (fun T => {x ∈ T | M f m x})), ?_, ?_, ?_⟩
    · rw [List.length_flatMap]
      simp only [List.length_map, List.map_const', List.length_range, List.sum_replicate, List.map_cons, List.prod_cons]
      try simp only [smul_eq_mul, nsmul_eq_mul, Nat.cast_id]
      exact Nat.mul_le_mul_left _ h1
    · intro x hx
      obtain ⟨T, hT, hxT⟩ := h2 x hx
      obtain ⟨m, hm, hM⟩ := h f (by simp) x hx
      refine ⟨{x ∈ T | M f m x}, ?_, hxT, hM⟩
      simp only [List.mem_flatMap, List.mem_range, List.mem_map]
      exact ⟨m, hm, T, hT, rfl⟩
    · intro T hT
      simp only [List.mem_flatMap, List.mem_range, List.mem_map] at hT
      obtain ⟨m, hm, T', hT', rfl⟩ := hT
      obtain ⟨h4, h5⟩ := h3 T' hT'
      refine ⟨fun x hx => h4 hx.1, fun g hg => ?_⟩
      rcases List.mem_cons.1 hg with rfl | hg
      · exact ⟨m, fun x hx => hx.2⟩
      · obtain ⟨m', hm'⟩ := h5 g hg
        exact ⟨m', fun x hx => hm' x hx.1⟩

/-- A union of `k` sets with at most one element has at most `k` elements. -/
theorem few_elements {α β : Type} (P : List α) (S : α → Set β) (h : ∀ a ∈ P, (S a).Subsingleton) :
    ∃ L : List β, L.length ≤ P.length ∧ ∀ a ∈ P, ∀ x ∈ S a, x ∈ L := by
  classical
  induction P with
  | nil => exact ⟨[], by simp, by simp⟩
  | cons a P ih =>
    obtain ⟨L, h1, h2⟩ := ih (fun b hb => h b (by simp [hb]))
    by_cases hx : ∃ x, x ∈ S a
    · obtain ⟨x, hx⟩ := hx
      refine ⟨x :: L, by simp; omega, fun b hb y hy => ?_⟩
      rcases List.mem_cons.1 hb with rfl | hb
      · rw [h b (by simp) hy hx]; simp
      · simp [h2 b hb y hy]
    · refine ⟨L, by simp; omega, fun b hb y hy => ?_⟩
      rcases List.mem_cons.1 hb with rfl | hb
      · exact absurd ⟨y, hy⟩ hx
      · exact h2 b hb y hy

/-- The ways to match a conjunction. -/
def ConjCtx.ways (n : Nat) (c : ConjCtx F) : Nat := (c.pos.map (cnt n)).prod

theorem ways_join (n : Nat) : ∀ (cs : List (ConjCtx F)) (a : ConjCtx F),
    (cs.foldl (fun acc new => (⟨acc.pos ++ new.pos, acc.neg ++ new.neg, acc.agg ++ new.agg⟩ : ConjCtx F)) a).ways n = a.ways n * (cs.map (ConjCtx.ways n)).prod
  | [], a => by simp
  | c :: cs, a => by
    rw [List.foldl_cons, ways_join n cs]
    simp [ConjCtx.ways, Nat.mul_assoc]

theorem sum_flatMap {α β : Type} (g : β → Nat) (k : α → List β) : ∀ l : List α, ((l.flatMap k).map g).sum = (l.map (fun x => ((k x).map g).sum)).sum
  | [] => rfl
  | a :: l => by simp [List.flatMap_cons, sum_flatMap g k l]

theorem ways_product (n : Nat) : ∀ css : List (List (ConjCtx F)), css ≠ [] →
    ((multiProduct css).map (fun xs => (xs.map (ConjCtx.ways n)).prod)).sum = (css.map (fun cs => (cs.map (ConjCtx.ways n)).sum)).prod
  | [], h => absurd rfl h
  | [l], _ => by simp [multiProduct, Function.comp_def]
  | l :: m :: ls, _ => by
    have ih := ways_product n (m :: ls) (by simp)
    simp only [multiProduct]
    rw [sum_flatMap]
    simp only [List.map_map, Function.comp_def, List.map_cons, List.prod_cons]
    rw [List.map_cons, List.prod_cons] at ih
    rw [← ih, ← List.sum_map_mul_right]
    congr 1
    refine List.map_congr_left (fun c _ => ?_)
    rw [← List.sum_map_mul_left]

mutual
theorem ways_formula (n : Nat) : ∀ (f : Formula F), f.NonEmpty → f.Ordinary B → ∀ cs, fromFormula f = some cs → (cs.map (ConjCtx.ways n)).sum = f.count n
  | .disj fs, hne, ho, cs, e => by
    simp only [fromFormula, Option.map_eq_some_iff] at e
    obtain ⟨css, e1, rfl⟩ := e
    simp only [Formula.NonEmpty] at hne
    simp only [Formula.Ordinary] at ho
    obtain ⟨h1, _, _⟩ := ways_all n fs hne.2 ho css e1
    simp only [Formula.count]
    rw [← h1, List.map_flatten, List.sum_flatten, List.map_map]
    rfl
  | .conj fs, hne, ho, cs, e => by
    simp only [fromFormula, Option.map_eq_some_iff] at e
    obtain ⟨css, e1, rfl⟩ := e
    simp only [Formula.NonEmpty] at hne
    simp only [Formula.Ordinary] at ho
    obtain ⟨_, h1, hl⟩ := ways_all n fs hne.2 ho css e1
    simp only [Formula.count]
    rw [← h1, ← ways_product n css (by rintro rfl; exact hne.1 (List.length_eq_zero_iff.1 (by simpa using hl.symm))), List.map_map]
    congr 1
    refine List.map_congr_left (fun xs _ => ?_)
    simp only [Function.comp_apply, ConjCtx.join]
    rw [ways_join]
    simp [ConjCtx.ways]
  | .atom p args, _, _, cs, e => by
    simp only [fromFormula, Option.some.injEq] at e
    subst e
    simp [ConjCtx.ways, cnt, Formula.count]
  | .neg p args, _, _, cs, e => by
    simp only [fromFormula, Option.some.injEq] at e
    subst e
    simp [ConjCtx.ways, Formula.count]
  | .constraint k, _, _, cs, e => by
    simp only [fromFormula, Option.some.injEq] at e
    subst e
    simp [ConjCtx.ways, cnt, Formula.count]
  | .reduce .., _, ho, _, _ => by simp [Formula.Ordinary] at ho
  | .implies .., _, ho, _, _ => by simp [Formula.Ordinary] at ho
  | .case .., _, ho, _, _ => by simp [Formula.Ordinary] at ho
  | .quant .., _, ho, _, _ => by simp [Formula.Ordinary] at ho
  | .range .., _, ho, _, _ => by simp [Formula.Ordinary] at ho
theorem ways_all (n : Nat) : ∀ (fs : List (Formula F)), Formula.NonEmpty.allNonEmpty fs → Formula.Ordinary.allOrdinary B fs → ∀ css, fromFormula.fromAll fs = some css →
    (css.map (fun cs => (cs.map (ConjCtx.ways n)).sum)).sum = Formula.count.sumCount n fs ∧
    (css.map (fun cs => (cs.map (ConjCtx.ways n)).sum)).prod = Formula.count.prodCount n fs ∧ css.length = fs.length
  | [], _, _, css, e => by
    simp only [fromFormula.fromAll, Option.some.injEq] at e
    subst e
    simp [Formula.count.sumCount, Formula.count.prodCount]
  | f :: fs, hne, ho, css, e => by
    simp only [fromFormula.fromAll, Option.bind_eq_some_iff, Option.map_eq_some_iff] at e
    obtain ⟨cs, e1, css', e2, rfl⟩ := e
    simp only [Formula.NonEmpty.allNonEmpty] at hne
    simp only [Formula.Ordinary.allOrdinary] at ho
    have h1 := ways_formula n f hne.1 ho.1 cs e1
    obtain ⟨h2, h3, h4⟩ := ways_all n fs hne.2 ho.2 css' e2
    simp [Formula.count.sumCount, Formula.count.prodCount, h1, h2, h3, h4]
end

/-- An accepted rule derives at most as many facts as there are ways to match the atoms of its body. -/
theorem checkRule_count {n : Nat} (hX : X.Proper) (hE : X.ExactFloats) (hD : SmallDB n B D) (demand : List Bool) (args : List (FExpr F)) (body : Formula F)
    (hne : body.NonEmpty) (ho : body.Ordinary B) (ha : FExpr.AllOrdinary args) (bs : List Name) (h : checkRule B demand args body = .ok bs)
    (q : Nat → Val F) :
    ∃ L : List (List (Val F)), L.length ≤ body.count n ∧ ∀ σ vs, (∀ x, (σ x).Proper) → body.Holds X D G V σ → FExpr.AllEvalTo X σ args vs →
      body.SumsCancel X σ → FExpr.AllSumsCancel X σ args → (∀ i : Nat, demand[i]? = some true → ∀ v, vs[i]? = some v → v = q i) → vs ∈ L := by
  cases hcs : fromFormula body with
  | none => simp [checkRule, checkBody, hcs] at h
  | some cs =>
    have hord := fromFormula_mem (Q := fun f => f.Ordinary B) (fun fs hf f hm => allOrdinary_mem fs (by simpa [Formula.Ordinary] using hf) f hm)
      (fun fs hf f hm => allOrdinary_mem fs (by simpa [Formula.Ordinary] using hf) f hm) body ho cs hcs
    obtain ⟨N⟩ := exists_numbering hD
    let S : ConjCtx F → Set (Name → Val F) := fun c => {σ | (∀ x, (σ x).Proper) ∧ c.Holds X D G V σ ∧ (∀ f ∈ c.pos, f.SumsCancel X σ) ∧
        FExpr.AllSumsCancel X σ args ∧ ∃ vs, FExpr.AllEvalTo X σ args vs ∧ ∀ i : Nat, demand[i]? = some true → ∀ v, vs[i]? = some v → v = q i}
    have one : ∀ c ∈ cs, ∃ L : List (List (Val F)), L.length ≤ c.ways n ∧ ∀ σ ∈ S c, ∀ vs, FExpr.AllEvalTo X σ args vs → vs ∈ L := by
      intro c hc
      obtain ⟨P, p1, p2, p3⟩ := split_parts (cnt n) (fun f m σ => Matches N X σ m f) c.pos (S c) (fun f hf σ hσ =>
        matches_exists (G := G) (V := V) N f (hord c hc f (by simp [hf])) (hσ.2.1 f (by simp [hf])))
      obtain ⟨L, l1, l2⟩ := few_elements P (fun H => {vs | ∃ σ ∈ H, FExpr.AllEvalTo X σ args vs}) (fun H hH => by
        obtain ⟨hs, hm⟩ := p3 H hH
        refine rule_small (K := .one) (D := D) (G := G) (V := V) demand args body ho ha bs h cs hcs c hc (fun σ hσ => (hs hσ).2.1) ?_ ?_ ?_ ?_
        · intro f hf
          obtain ⟨m, hm⟩ := hm f hf
          exact form_one (G := G) (V := V) N hX hE (fun σ hσ => (hs hσ).1) f (hord c hc f (by simp [hf])) (fun σ hσ => (hs hσ).2.1 f (by simp [hf]))
            (fun σ hσ => (hs hσ).2.2.1 f hf) m hm
        · intro σ hσ
          obtain ⟨_, _, _, _, vs, hvs, _⟩ := hs hσ
          exact ⟨vs, hvs⟩
        · intro e he
          refine rev_one hX (fun σ hσ => (hs hσ).1) e ((allOrdinary_iff args).1 ha e he) (fun σ hσ => ?_)
            (fun σ hσ => allSumsCancel_mem args (hs hσ).2.2.2.1 e he)
          obtain ⟨_, _, _, _, vs, hvs, _⟩ := hs hσ
          obtain ⟨i, hi, rfl⟩ := List.mem_iff_getElem.1 he
          obtain ⟨w, _, hw⟩ := allEvalTo_get args vs hvs i _ (List.getElem?_eq_getElem hi)
          exact ⟨w, hw⟩
        · intro i e hi he
          refine Small.one.subset (Small.one.single (q i)) ?_
          rintro v ⟨σ, hσ, hv⟩
          obtain ⟨_, _, _, _, vs, hvs, hq⟩ := hs hσ
          obtain ⟨w, hw1, hw⟩ := allEvalTo_get args vs hvs i e he
          rw [evalsTo_unique e ((allOrdinary_iff args).1 ha e (List.mem_of_getElem? he)) v w hv hw]
          exact hq i hi w hw1)
      refine ⟨L, l1.trans p1, fun σ hσ vs hvs => ?_⟩
      obtain ⟨T, hT, hσT⟩ := p2 σ hσ
      exact l2 T hT vs ⟨σ, hσT, hvs⟩
    have all : ∀ cs' : List (ConjCtx F), (∀ c ∈ cs', c ∈ cs) → ∃ L : List (List (Val F)), L.length ≤ (cs'.map (ConjCtx.ways n)).sum ∧
        ∀ c ∈ cs', ∀ σ ∈ S c, ∀ vs, FExpr.AllEvalTo X σ args vs → vs ∈ L := by
      intro cs' hsub
      induction cs' with
      | nil => exact ⟨[], by simp, by simp⟩
      | cons c cs' ih =>
        obtain ⟨L, l1, l2⟩ := ih (fun c' hc' => hsub c' (by simp [hc']))
        obtain ⟨L', l1', l2'⟩ := one c (hsub c (by simp))
        refine ⟨L' ++ L, by simp; omega, fun c' hc' σ hσ vs hvs => ?_⟩
        rcases List.mem_cons.1 hc' with rfl | hc'
        · exact List.mem_append_left _ (l2' σ hσ vs hvs)
        · exact List.mem_append_right _ (l2 c' hc' σ hσ vs hvs)
    obtain ⟨L, l1, l2⟩ := all cs (fun c hc => hc)
    refine ⟨L, by rw [← ways_formula n body hne ho cs hcs]; exact l1, fun σ vs h1 h2 h3 h4 h5 h6 => ?_⟩
    obtain ⟨c, hc, h2⟩ := (fromFormula_holds body hne cs hcs).1 h2
    have hcan := fromFormula_mem (Q := fun f => f.SumsCancel X σ) (fun fs hf f hm => formulaCancel_mem fs (by simpa [Formula.SumsCancel] using hf) f hm)
      (fun fs hf f hm => formulaCancel_mem fs (by simpa [Formula.SumsCancel] using hf) f hm) body h4 cs hcs
    exact l2 c hc σ ⟨h1, h2, fun f hf => hcan c hc f (by simp [hf]), h5, vs, h3, h6⟩ vs h3

end Scallop.Front
