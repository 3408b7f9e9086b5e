import Verif.Spec.PlanOrder
import Verif.Proof.PlanRam

/-!
# Operands of cursor operators are sorted
-/

namespace Scallop.Plan

open Scallop.Back Scallop.Ram

variable {F V : Type}

/-! ## The order of tuples -/

theorem tupCmpList_append (cmp : V → V → Ordering) : ∀ {a a' b b' : List (Tup V)}, a.length = a'.length →
    tupCmpList cmp (a ++ b) (a' ++ b') = (tupCmpList cmp a a').then (tupCmpList cmp b b')
  | [], [], _, _, _ => by simp [tupCmpList]
  | x :: a, y :: a', b, b', h => by
    simp only [List.cons_append, tupCmpList]
    rw [tupCmpList_append cmp (by simpa using h), Ordering.then_assoc]
  | [], _ :: _, _, _, h => by simp at h
  | _ :: _, [], _, _, h => by simp at h

/-- The components of a tuple. -/
def comps : Tup V → List (Tup V)
  | .val _ => []
  | .tup ts => ts

/-- The elements `n` to `m - 1`. -/
def seg (n m : Nat) (l : List (Tup V)) : List (Tup V) := (l.drop n).take (m - n)

theorem at?_comps (t : Tup V) (i : Nat) : t.at? i = (comps t)[i]? := by
  cases t <;> simp [Tup.at?, comps]

theorem seg_append {n m k : Nat} (h1 : n ≤ m) (h2 : m ≤ k) (l : List (Tup V)) : seg n k l = seg n m l ++ seg m k l := by
  unfold seg
  have : k - n = (m - n) + (k - m) := by omega
  rw [this, List.take_add, List.drop_drop]
  congr 3
  omega

theorem seg_self (n : Nat) (l : List (Tup V)) : seg n n l = [] := by simp [seg]

theorem seg_length {n m : Nat} {l : List (Tup V)} (h : m ≤ l.length) : (seg n m l).length = m - n := by
  simp only [seg, List.length_take, List.length_drop]
  omega

theorem seg_one {n : Nat} {l : List (Tup V)} {x} (h : l[n]? = some x) : seg n (n + 1) l = [x] := by
  obtain ⟨hn, rfl⟩ := List.getElem?_eq_some_iff.mp h
  simp only [seg, Nat.add_sub_cancel_left]
  rw [List.drop_eq_getElem_cons hn]
  rfl

mutual
theorem perm_cmp {X : Ext F} (cmp : Val F → Val F → Ordering) {t u : Tup (Val F)} : ∀ {π : Perm} {n m : Nat} {e : Expr F} {t' u' : Tup (Val F)},
    orderPreservingFrom n π = some m → permExpr π = some e → e.eval X t = .ok t' → e.eval X u = .ok u' →
    n ≤ m ∧ (n < m → m ≤ (comps t).length ∧ m ≤ (comps u).length) ∧ tupCmp cmp t' u' = tupCmpList cmp (seg n m (comps t)) (seg n m (comps u))
  | .val i, n, m, e, t', u', h, he, ht, hu => by
    simp only [orderPreservingFrom] at h
    split at h
    · rename_i hin
      subst hin
      simp only [Option.some.injEq] at h
      subst h
      have := mkAccess_eq he
      subst this
      simp only [Expr.eval, Tup.atPath] at ht hu
      have key : ∀ {w w' : Tup (Val F)}, (match (w.at? i).bind (fun u => some u) with | some u => Outcome.ok u | none => .panic) = .ok w' →
          (comps w)[i]? = some w' := by
        intro w w' hw
        rw [at?_comps] at hw
        cases hc : (comps w)[i]? with
        | none => simp [hc] at hw
        | some x => simp [hc] at hw; rw [hw]
      have h1 := key ht
      have h2 := key hu
      have l1 := (List.getElem?_eq_some_iff.mp h1).1
      have l2 := (List.getElem?_eq_some_iff.mp h2).1
      refine ⟨by omega, fun _ => ⟨l1, l2⟩, ?_⟩
      rw [seg_one h1, seg_one h2]
      simp [tupCmpList]
    · cases h
  | .tup πs, n, m, e, t', u', h, he, ht, hu => by
    simp only [orderPreservingFrom] at h
    simp only [permExpr, Option.map_eq_some_iff] at he
    obtain ⟨es, hes, rfl⟩ := he
    rw [Expr.eval.eq_1] at ht hu
    cases h1 : Expr.evalList X es t with
    | ok ts =>
      cases h2 : Expr.evalList X es u with
      | ok us =>
        simp only [h1, h2, Outcome.bind, Outcome.ok.injEq] at ht hu
        subst ht hu
        simp only [tupCmp]
        exact permList_cmp cmp h hes h1 h2
      | _ => simp [h2, Outcome.bind] at hu
    | _ => simp [h1, Outcome.bind] at ht
theorem permList_cmp {X : Ext F} (cmp : Val F → Val F → Ordering) {t u : Tup (Val F)} : ∀ {πs : List Perm} {n m : Nat} {es : List (Expr F)}
    {ts us : List (Tup (Val F))},
    orderPreservingList n πs = some m → permExprList πs = some es → Expr.evalList X es t = .ok ts → Expr.evalList X es u = .ok us →
    n ≤ m ∧ (n < m → m ≤ (comps t).length ∧ m ≤ (comps u).length) ∧ tupCmpList cmp ts us = tupCmpList cmp (seg n m (comps t)) (seg n m (comps u))
  | [], n, m, es, ts, us, h, he, ht, hu => by
    simp only [orderPreservingList, Option.some.injEq] at h
    subst h
    simp only [permExprList, Option.some.injEq] at he
    subst he
    rw [Expr.evalList.eq_1] at ht hu
    simp only [Outcome.ok.injEq] at ht hu
    subst ht hu
    simp [seg_self]
  | π :: πs, n, m, es, ts, us, h, he, ht, hu => by
    simp only [orderPreservingList, Option.bind_eq_some_iff] at h
    obtain ⟨k, h1, h2⟩ := h
    simp only [permExprList, Option.bind_eq_some_iff, Option.map_eq_some_iff] at he
    obtain ⟨e, he1, es', he2, rfl⟩ := he
    rw [Expr.evalList.eq_2] at ht hu
    have key : ∀ {w : Tup (Val F)} {ws}, ((e.eval X w).bind fun a => (Expr.evalList X es' w).bind fun b => Outcome.ok (a :: b)) = .ok ws →
        ∃ a b, e.eval X w = .ok a ∧ Expr.evalList X es' w = .ok b ∧ ws = a :: b := by
      intro w ws hw
      cases h1 : e.eval X w with
      | ok a =>
        cases h2 : Expr.evalList X es' w with
        | ok b =>
          simp only [h1, h2, Outcome.bind, Outcome.ok.injEq] at hw
          exact ⟨a, b, rfl, rfl, hw.symm⟩
        | _ => simp [h1, h2, Outcome.bind] at hw
      | _ => simp [h1, Outcome.bind] at hw
    obtain ⟨a, b, ha, hb, rfl⟩ := key ht
    obtain ⟨a', b', ha', hb', rfl⟩ := key hu
    obtain ⟨l1, i1, c1⟩ := perm_cmp cmp h1 he1 ha ha'
    obtain ⟨l2, i2, c2⟩ := permList_cmp cmp h2 he2 hb hb'
    refine ⟨by omega, ?_, ?_⟩
    · intro hlt
      by_cases hk : k < m
      · exact i2 hk
      · have : k = m := by omega
        subst this
        exact i1 hlt
    · simp only [tupCmpList, c1, c2]
      rw [seg_append l1 l2, seg_append l1 l2]
      by_cases hk : n < k
      · rw [tupCmpList_append cmp (by rw [seg_length (i1 hk).1, seg_length (i1 hk).2])]
      · have : n = k := by omega
        subst this
        simp [seg_self, tupCmpList]
end

/-- Bringing the columns of tuples into a shape that keeps their order keeps the order of the tuples. -/
theorem orderPreserving_le {X : Ext F} (cmp : Val F → Val F → Ordering) {t u : Tup (Val F)} {π : Perm} {e : Expr F} {t' u' : Tup (Val F)}
    (h : orderPreserving π = true) (he : permExpr π = some e) (ht : e.eval X t = .ok t') (hu : e.eval X u = .ok u')
    (hle : tupCmp cmp t u ≠ .gt) : tupCmp cmp t' u' ≠ .gt := by
  rw [orderPreserving, Option.isSome_iff_exists] at h
  obtain ⟨m, h⟩ := h
  obtain ⟨_, h2, h3⟩ := perm_cmp cmp h he ht hu
  rw [h3]
  by_cases hm : 0 < m
  · obtain ⟨l1, l2⟩ := h2 hm
    cases t with
    | val _ => simp only [comps, List.length_nil] at l1; omega
    | tup ts =>
      cases u with
      | val _ => simp only [comps, List.length_nil] at l2; omega
      | tup us =>
        simp only [comps] at l1 l2 ⊢
        simp only [tupCmp] at hle
        rw [← List.take_append_drop m ts, ← List.take_append_drop m us, tupCmpList_append cmp (by simp; omega)] at hle
        simp only [seg, Nat.sub_zero, List.drop_zero]
        intro hgt
        rw [hgt] at hle
        exact hle rfl
  · have : m = 0 := by omega
    subst this
    simp [seg_self, tupCmpList]

/-! ## Sorted rows -/

theorem SortedBy.filter {cmp : V → V → Ordering} {l : List (Tup V)} (h : SortedBy cmp l) (p : Tup V → Bool) : SortedBy cmp (l.filter p) :=
  List.Pairwise.sublist List.filter_sublist h

theorem SortedBy.map {S : Store F} {l : List (Tup (Val F))} {e : Expr F} (h : SortedBy S.cmp l)
    (he : ∀ t u t' u', e.eval S.X t = .ok t' → e.eval S.X u = .ok u' → tupCmp S.cmp t u ≠ .gt → tupCmp S.cmp t' u' ≠ .gt) :
    SortedBy S.cmp (l.filterMap (S.eval? e)) := by
  unfold SortedBy at h ⊢
  rw [List.pairwise_filterMap]
  refine h.imp ?_
  intro t u hle t' ht' u' hu'
  have key : ∀ {w w'}, S.eval? e w = some w' → e.eval S.X w = .ok w' := by
    intro w w' hw
    unfold Store.eval? at hw
    split at hw
    · rename_i heq
      simp only [Option.some.injEq] at hw
      rw [heq, hw]
    · cases hw
  exact he t u t' u' (key ht') (key hu') hle

mutual
/-- A projection that needs no variables gives the same tuple, without values. -/
theorem projection_nil {X : Ext F} (cmp : Val F → Val F → Ordering) : ∀ {g : VTuple} {e : Expr F} {t u t' u'}, projection (.tup []) g = some e →
    e.eval X t = .ok t' → e.eval X u = .ok u' → tupCmp cmp t' u' = .eq
  | .val x, e, t, u, t', u', h, _, _ => by simp [projection, accessorOf, accessorOfList] at h
  | .tup gs, e, t, u, t', u', h, ht, hu => by
    simp only [projection, Option.map_eq_some_iff] at h
    obtain ⟨es, hes, rfl⟩ := h
    rw [Expr.eval.eq_1] at ht hu
    cases h1 : Expr.evalList X es t with
    | ok ts =>
      cases h2 : Expr.evalList X es u with
      | ok us =>
        simp only [h1, h2, Outcome.bind, Outcome.ok.injEq] at ht hu
        subst ht hu
        simp only [tupCmp]
        exact projectionList_nil cmp hes h1 h2
      | _ => simp [h2, Outcome.bind] at hu
    | _ => simp [h1, Outcome.bind] at ht
/-- `projection_nil` on a list. -/
theorem projectionList_nil {X : Ext F} (cmp : Val F → Val F → Ordering) : ∀ {gs : List VTuple} {es : List (Expr F)} {t u ts us},
    projectionList (.tup []) gs = some es → Expr.evalList X es t = .ok ts → Expr.evalList X es u = .ok us → tupCmpList cmp ts us = .eq
  | [], es, t, u, ts, us, h, ht, hu => by
    simp only [projectionList, Option.some.injEq] at h
    subst h
    rw [Expr.evalList.eq_1] at ht hu
    simp only [Outcome.ok.injEq] at ht hu
    subst ht hu
    simp [tupCmpList]
  | g :: gs, es, t, u, ts, us, h, ht, hu => by
    simp only [projectionList, Option.bind_eq_some_iff, Option.map_eq_some_iff] at h
    obtain ⟨e, he1, es', he2, rfl⟩ := h
    rw [Expr.evalList.eq_2] at ht hu
    have key : ∀ {w : Tup (Val F)} {ws}, ((e.eval X w).bind fun a => (Expr.evalList X es' w).bind fun b => Outcome.ok (a :: b)) = .ok ws →
        ∃ a b, e.eval X w = .ok a ∧ Expr.evalList X es' w = .ok b ∧ ws = a :: b := by
      intro w ws hw
      cases h1 : e.eval X w with
      | ok a =>
        cases h2 : Expr.evalList X es' w with
        | ok b =>
          simp only [h1, h2, Outcome.bind, Outcome.ok.injEq] at hw
          exact ⟨a, b, rfl, rfl, hw.symm⟩
        | _ => simp [h1, h2, Outcome.bind] at hw
      | _ => simp [h1, Outcome.bind] at hw
    obtain ⟨a, b, ha, hb, rfl⟩ := key ht
    obtain ⟨a', b', ha', hb', rfl⟩ := key hu
    simp only [tupCmpList, projection_nil cmp he1 ha ha', projectionList_nil cmp he2 hb hb', Ordering.then]
end

/-! ## The translation -/

/-- The result of a translation: safe, and sorted if this is asked for. -/
def Ordered (S : Store F) (p : DProp) (r : Dataflow F × St F) : Prop :=
  MergeSafe S r.1 ∧ r.2.MergeSafe S ∧ (p.needSorted = true → SortedBy S.cmp (rows S r.1))

variable {S : Store F} {E : Env F}

theorem createTemp_ordered (hS : S.Lawful) {s : St F} {d : Dataflow F} (hs : s.MergeSafe S) (hd : MergeSafe S d) (p : DProp) :
    Ordered S p (createTemp s d) := by
  refine ⟨trivial, ?_, fun _ => hS.rel _⟩
  intro n d' h
  simp only [createTemp, List.mem_append, List.mem_singleton, Prod.mk.injEq] at h
  rcases h with (h | ⟨_, rfl⟩) | h
  · exact hs n d' (Or.inl h)
  · exact hd
  · exact hs n d' (Or.inr h)

theorem createNeg_ordered (hS : S.Lawful) {s : St F} {d : Dataflow F} (hs : s.MergeSafe S) (hd : MergeSafe S d) (p : DProp) :
    Ordered S p (createNeg s d) := by
  refine ⟨trivial, ?_, fun _ => hS.rel _⟩
  intro n d' h
  simp only [createNeg, List.mem_append, List.mem_singleton, Prod.mk.injEq] at h
  rcases h with h | h | ⟨_, rfl⟩
  · exact hs n d' (Or.inl h)
  · exact hs n d' (Or.inr h)
  · exact hd

theorem process_ordered (hS : S.Lawful) {s : St F} {d : Dataflow F} (p : DProp) (hs : s.MergeSafe S) (hd : MergeSafe S d) :
    Ordered S p (process p s d) := by
  rw [process]
  split
  · split
    · exact createNeg_ordered hS hs hd p
    · split
      · exact ⟨hd, hs, fun _ => hS.sort _⟩
      · exact createTemp_ordered hS hs hd p
  · rename_i h
    exact ⟨hd, hs, fun h' => absurd h' h⟩

theorem groundNoConst_ordered (hS : S.Lawful) {goal : VTuple} {a : Atom String F} {p : DProp} {s : St F} {r} (hs : s.MergeSafe S)
    (h : groundNoConst goal a p s = some r) : Ordered S p r := by
  rw [groundNoConst] at h
  split at h
  · simp only [Option.some.injEq] at h
    subst h
    exact ⟨trivial, hs, fun _ => hS.rel _⟩
  · simp only [Option.bind_eq_some_iff] at h
    obtain ⟨⟨π, v⟩, hπ, e, he, f, hf, h⟩ := h
    have hmap : ∀ {l}, SortedBy S.cmp l → orderPreserving π = true → SortedBy S.cmp (l.filterMap (S.eval? e)) :=
      fun hl ho => hl.map (fun t u t' u' ht hu hle => orderPreserving_le S.cmp ho he ht hu hle)
    cases f with
    | some c =>
      simp only at h
      split at h
      · have hs' : St.MergeSafe S { s with perms := s.perms ++ [(a.predicate, π)] } := hs
        have hd : MergeSafe S (.project (.un (.filter c) (.leaf (.rel a.predicate))) e) := trivial
        simp only [Option.some.injEq] at h
        subst h
        split
        · exact createNeg_ordered hS hs' hd p
        · exact createTemp_ordered hS hs' hd p
      · rename_i hcond
        simp only [Option.some.injEq] at h
        subst h
        refine ⟨trivial, hs, fun hn => ?_⟩
        rw [hn, Bool.true_and, Bool.not_eq_true', Bool.not_eq_false] at hcond
        exact hmap ((hS.rel _).filter _) hcond
    | none =>
      simp only at h
      split at h
      · simp only [Option.some.injEq] at h
        subst h
        exact ⟨trivial, hs, fun _ => hS.rel _⟩
      · rename_i hcond
        simp only [Option.some.injEq] at h
        subst h
        refine ⟨trivial, hs, fun hn => ?_⟩
        rw [hn, Bool.true_and, Bool.not_eq_true', Bool.not_eq_false] at hcond
        exact hmap (hS.rel _) hcond

theorem groundFlow_ordered (hS : S.Lawful) {goal : VTuple} {a : Atom String F} {p : DProp} {s : St F} {r} (hs : s.MergeSafe S)
    (h : groundFlow E goal a p s = some r) : Ordered S p r := by
  rw [groundFlow] at h
  split at h
  · split at h
    · simp only [Option.some.injEq] at h
      subst h
      exact ⟨trivial, hs, fun _ => hS.rel _⟩
    · simp only [Option.map_eq_some_iff] at h
      obtain ⟨e, he, rfl⟩ := h
      refine ⟨trivial, hs, fun _ => ?_⟩
      exact (hS.rel _).map (fun t u t' u' ht hu _ => by rw [projection_nil S.cmp he ht hu]; decide)
  · split at h
    · simp only [Option.bind_eq_some_iff] at h
      obtain ⟨st, _, h⟩ := h
      split at h
      · simp only [groundStatic, Option.bind_eq_some_iff, Option.map_eq_some_iff] at h
        obtain ⟨r1, h1, es, _, f, _, e, _, rfl⟩ := h
        obtain ⟨m1, m2, _⟩ := groundNoConst_ordered hS hs h1
        exact process_ordered hS p m2 m1
      · simp only [groundDynamic, Option.bind_eq_some_iff, Option.map_eq_some_iff] at h
        obtain ⟨r1, h1, e, _, rfl⟩ := h
        obtain ⟨m1, m2, m3⟩ := groundNoConst_ordered hS hs h1
        exact process_ordered hS p m2 ⟨m3 rfl, m1⟩
    · exact groundNoConst_ordered hS hs h

theorem projectFlow_ordered (hS : S.Lawful) {sub : VTuple → DProp → St F → Res F}
    (hsub : ∀ goal p s r, s.MergeSafe S → sub goal p s = some r → Ordered S p r) {b : List String} :
    ∀ {fuel goal assigns p s r}, s.MergeSafe S → projectFlow E sub b fuel goal assigns p s = some r → Ordered S p r
  | 0, _, _, _, _, _, _, h => by simp [projectFlow] at h
  | fuel + 1, goal, assigns, p, s, r, hs, h => by
    rw [projectFlow] at h
    simp only at h
    split at h
    · exact hsub goal p s r hs h
    · split at h
      · cases h
      · simp only [Option.bind_eq_some_iff, Option.map_eq_some_iff] at h
        obtain ⟨r1, h1, e, _, rfl⟩ := h
        obtain ⟨m1, m2, _⟩ := projectFlow_ordered hS hsub hs h1
        exact process_ordered hS p m2 m1

/-- Every operator with cursors gets sorted operands. -/
theorem toRam_ordered (hS : S.Lawful) : ∀ {d : Plan F} {goal p s r}, s.MergeSafe S → toRam E d goal p s = some r → Ordered S p r
  | .unit, goal, p, s, r, hs, h => by
    simp only [toRam, Option.map_eq_some_iff] at h
    obtain ⟨t, _, rfl⟩ := h
    exact ⟨trivial, hs, fun _ => List.pairwise_singleton _ _⟩
  | .reduce q, goal, p, s, r, hs, h => by
    simp only [toRam, reduceFlow, Option.map_eq_some_iff] at h
    obtain ⟨e, _, rfl⟩ := h
    exact process_ordered hS p hs trivial
  | .ground a, goal, p, s, r, hs, h => groundFlow_ordered hS hs h
  | .project b d as, goal, p, s, r, hs, h => projectFlow_ordered hS (fun _ _ _ _ hs h => toRam_ordered hS hs h) hs h
  | .filter b d cs, goal, p, s, r, hs, h => by
    simp only [toRam, Option.bind_eq_some_iff, Option.map_eq_some_iff] at h
    obtain ⟨r1, h1, f, _, e, _, rfl⟩ := h
    obtain ⟨m1, m2, _⟩ := toRam_ordered hS hs h1
    exact process_ordered hS p m2 m1
  | .join d1 d2, goal, p, s, r, hs, h => by
    rw [toRam] at h
    simp only at h
    split at h
    · simp only [Option.bind_eq_some_iff, Option.map_eq_some_iff] at h
      obtain ⟨r1, h1, r2, h2, e, _, rfl⟩ := h
      obtain ⟨m1, m2, _⟩ := toRam_ordered hS hs h1
      obtain ⟨n1, n2, _⟩ := toRam_ordered hS m2 h2
      exact process_ordered hS p n2 ⟨m1, n1⟩
    · split at h
      · simp only [Option.bind_eq_some_iff] at h
        obtain ⟨r1, h1, r2, h2, h⟩ := h
        obtain ⟨m1, m2, m3⟩ := toRam_ordered hS hs h1
        obtain ⟨n1, n2, n3⟩ := toRam_ordered hS m2 h2
        split at h
        · simp only [Option.some.injEq] at h
          subst h
          exact ⟨⟨⟨m3 rfl, n3 rfl⟩, m1, n1⟩, n2, fun _ => (m3 rfl).filter _⟩
        · simp only [Option.map_eq_some_iff] at h
          obtain ⟨e, _, rfl⟩ := h
          exact process_ordered hS p n2 ⟨⟨m3 rfl, n3 rfl⟩, m1, n1⟩
      · simp only [Option.bind_eq_some_iff, Option.map_eq_some_iff] at h
        obtain ⟨r1, h1, r2, h2, e, _, h⟩ := h
        obtain ⟨m1, m2, m3⟩ := toRam_ordered hS hs h1
        obtain ⟨n1, n2, n3⟩ := toRam_ordered hS m2 h2
        split at h
        · subst h
          exact process_ordered hS p n2 m1
        · subst h
          exact process_ordered hS p n2 ⟨⟨m3 rfl, n3 rfl⟩, m1, n1⟩
  | .antijoin d1 d2, goal, p, s, r, hs, h => by
    rw [toRam] at h
    simp only at h
    split at h
    · simp only [Option.bind_eq_some_iff] at h
      obtain ⟨r1, h1, r2, h2, h⟩ := h
      obtain ⟨m1, m2, m3⟩ := toRam_ordered hS hs h1
      obtain ⟨n1, n2, n3⟩ := toRam_ordered hS m2 h2
      split at h
      · simp only [Option.some.injEq] at h
        subst h
        exact ⟨⟨⟨m3 rfl, n3 rfl⟩, m1, n1⟩, n2, fun _ => (m3 rfl).filter _⟩
      · simp only [Option.map_eq_some_iff] at h
        obtain ⟨e, _, rfl⟩ := h
        exact process_ordered hS p n2 ⟨⟨m3 rfl, n3 rfl⟩, m1, n1⟩
    · simp only [Option.bind_eq_some_iff, Option.map_eq_some_iff] at h
      obtain ⟨r1, h1, r2, h2, e, _, rfl⟩ := h
      obtain ⟨m1, m2, m3⟩ := toRam_ordered hS hs h1
      obtain ⟨n1, n2, n3⟩ := toRam_ordered hS m2 h2
      exact process_ordered hS p n2 ⟨⟨m3 rfl, n3 rfl⟩, m1, n1⟩
  | .fpGround a free, goal, p, s, r, hs, h => by
    simp only [toRam, Option.bind_eq_some_iff, Option.map_eq_some_iff] at h
    obtain ⟨cs, _, e, _, rfl⟩ := h
    exact process_ordered hS p hs trivial
  | .fpConstraint b d a, goal, p, s, r, hs, h => by
    simp only [toRam, Option.bind_eq_some_iff, Option.map_eq_some_iff] at h
    obtain ⟨r1, h1, es, _, e, _, rfl⟩ := h
    obtain ⟨m1, m2, _⟩ := toRam_ordered hS hs h1
    exact process_ordered hS p m2 m1
  | .fpJoin d a free, goal, p, s, r, hs, h => by
    simp only [toRam, Option.bind_eq_some_iff, Option.map_eq_some_iff] at h
    obtain ⟨r1, h1, es, _, e, _, rfl⟩ := h
    obtain ⟨m1, m2, _⟩ := toRam_ordered hS hs h1
    exact process_ordered hS p m2 m1

/-- The same for rules. -/
theorem headFlow_ordered (hS : S.Lawful) {hd : Head String F} {d : Plan F} {inPlace s f s'} (hs : s.MergeSafe S)
    (h : headFlow E hd d inPlace s = some (f, s')) : MergeSafe S f ∧ s'.MergeSafe S := by
  cases hd with
  | atom a =>
    simp only [headFlow, atomHeadFlow, Option.bind_eq_some_iff, Option.map_eq_some_iff] at h
    obtain ⟨g, _, r, hr, f', hf', h⟩ := h
    have e1 := congrArg Prod.fst h
    have e2 := congrArg Prod.snd h
    simp only at e1 e2
    subst e1 e2
    obtain ⟨m1, m2, _⟩ := toRam_ordered hS hs hr
    have hf : MergeSafe S f' := by
      split at hf'
      · simp only [Option.map_eq_some_iff] at hf'
        obtain ⟨e, _, rfl⟩ := hf'
        exact m1
      · split at hf'
        · simp only [Option.map_eq_some_iff] at hf'
          obtain ⟨e, _, rfl⟩ := hf'
          exact m1
        · simp only [Option.some.injEq] at hf'
          rwa [← hf']
    refine ⟨?_, m2⟩
    split
    · exact hf
    · exact hf
  | disj as =>
    cases as with
    | nil => simp [headFlow, disjHeadFlow] at h
    | cons a as =>
      simp only [headFlow, disjHeadFlow] at h
      split at h
      · cases h
      · simp only [Option.bind_eq_some_iff, Option.map_eq_some_iff] at h
        obtain ⟨r, hr, es, _, h⟩ := h
        have e1 := congrArg Prod.fst h
        have e2 := congrArg Prod.snd h
        simp only at e1 e2
        subst e1 e2
        obtain ⟨m1, m2, _⟩ := toRam_ordered hS hs hr
        exact ⟨m1, m2⟩

/-! ## The order of tuples is a total preorder -/

/-- How three comparisons fit together. -/
def Chain (ab bc ac : Ordering) : Prop :=
  (ab = .eq → bc = .eq → ac = .eq) ∧ (ab = .lt → bc = .lt → ac = .lt) ∧ (ab = .lt → bc = .eq → ac = .lt) ∧ (ab = .eq → bc = .lt → ac = .lt)

theorem Chain.then {ab bc ac ab' bc' ac' : Ordering} (h : Chain ab bc ac) (h' : Chain ab' bc' ac') :
    Chain (ab.then ab') (bc.then bc') (ac.then ac') := by
  revert h h'
  cases ab <;> cases bc <;> cases ac <;> simp [Chain, Ordering.then] <;> cases ab' <;> cases bc' <;> cases ac' <;> simp

mutual
theorem tupCmp_chain {cmp : V → V → Ordering} (hc : ∀ a b c, Chain (cmp a b) (cmp b c) (cmp a c)) : ∀ a b c : Tup V,
    Chain (tupCmp cmp a b) (tupCmp cmp b c) (tupCmp cmp a c)
  | .val a, .val b, .val c => by simpa only [tupCmp] using hc a b c
  | .val _, .val _, .tup _ => by simp [tupCmp, Chain]
  | .val _, .tup _, .val _ => by simp [tupCmp, Chain]
  | .val _, .tup _, .tup _ => by simp [tupCmp, Chain]
  | .tup _, .val _, .val _ => by simp [tupCmp, Chain]
  | .tup _, .val _, .tup _ => by simp [tupCmp, Chain]
  | .tup _, .tup _, .val _ => by simp [tupCmp, Chain]
  | .tup as, .tup bs, .tup cs => by simpa only [tupCmp] using tupCmpList_chain hc as bs cs
theorem tupCmpList_chain {cmp : V → V → Ordering} (hc : ∀ a b c, Chain (cmp a b) (cmp b c) (cmp a c)) : ∀ a b c : List (Tup V),
    Chain (tupCmpList cmp a b) (tupCmpList cmp b c) (tupCmpList cmp a c)
  | [], [], [] => by simp [tupCmpList, Chain]
  | [], [], _ :: _ => by simp [tupCmpList, Chain]
  | [], _ :: _, [] => by simp [tupCmpList, Chain]
  | [], _ :: _, _ :: _ => by simp [tupCmpList, Chain]
  | _ :: _, [], [] => by simp [tupCmpList, Chain]
  | _ :: _, [], _ :: _ => by simp [tupCmpList, Chain]
  | _ :: _, _ :: _, [] => by simp [tupCmpList, Chain]
  | a :: as, b :: bs, c :: cs => by
    simp only [tupCmpList]
    exact (tupCmp_chain hc a b c).then (tupCmpList_chain hc as bs cs)
end

mutual
theorem tupCmp_swap {cmp : V → V → Ordering} (hc : ∀ a b, (cmp a b).swap = cmp b a) : ∀ a b : Tup V, (tupCmp cmp a b).swap = tupCmp cmp b a
  | .val a, .val b => by simpa only [tupCmp] using hc a b
  | .val _, .tup _ => by simp [tupCmp]
  | .tup _, .val _ => by simp [tupCmp]
  | .tup as, .tup bs => by simpa only [tupCmp] using tupCmpList_swap hc as bs
theorem tupCmpList_swap {cmp : V → V → Ordering} (hc : ∀ a b, (cmp a b).swap = cmp b a) : ∀ a b : List (Tup V),
    (tupCmpList cmp a b).swap = tupCmpList cmp b a
  | [], [] => by simp [tupCmpList]
  | [], _ :: _ => by simp [tupCmpList]
  | _ :: _, [] => by simp [tupCmpList]
  | a :: as, b :: bs => by
    simp only [tupCmpList, ← tupCmp_swap hc a b, ← tupCmpList_swap hc as bs, Ordering.swap_then]
end

/-- Sorting by the order of tuples sorts. -/
theorem mergeSort_sorted {cmp : V → V → Ordering} (hc : ∀ a b c, Chain (cmp a b) (cmp b c) (cmp a c)) (hs : ∀ a b, (cmp a b).swap = cmp b a)
    (l : List (Tup V)) : SortedBy cmp (l.mergeSort (fun a b => tupCmp cmp a b != .gt)) := by
  have := List.pairwise_mergeSort (le := fun a b : Tup V => tupCmp cmp a b != .gt) ?_ ?_ l
  · exact this.imp (fun h => by simpa using h)
  · intro a b c h1 h2
    obtain ⟨e1, e2, e3, e4⟩ := tupCmp_chain hc a b c
    simp only [bne_iff_ne, ne_eq] at h1 h2 ⊢
    revert e1 e2 e3 e4 h1 h2
    cases tupCmp cmp a b <;> cases tupCmp cmp b c <;> simp <;> intro h <;> simp [h]
  · intro a b
    have := tupCmp_swap hs a b
    simp only [Bool.or_eq_true, bne_iff_ne, ne_eq, ← this]
    cases tupCmp cmp a b <;> simp

end Scallop.Plan
