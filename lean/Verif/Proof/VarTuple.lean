import Verif.Spec.Plan
import Verif.Proof.Back

/-!
# Lemmas about shapes of tuples
-/

namespace Scallop.Plan

open Scallop.Back Scallop.Ram

variable {F : Type}

/-! ## Sets of variables -/

theorem mem_uniq {x : String} : ∀ {l : List String}, x ∈ uniq l ↔ x ∈ l
  | [] => by simp [uniq]
  | y :: l => by
    simp only [uniq, List.mem_cons, List.mem_filter, mem_uniq (l := l), decide_eq_true_eq]
    constructor
    · rintro (h | h)
      · exact Or.inl h
      · exact Or.inr h.1
    · rintro (h | h)
      · exact Or.inl h
      · by_cases e : x = y
        · exact Or.inl e
        · exact Or.inr ⟨h, e⟩

theorem nodup_uniq : ∀ l : List String, (uniq l).Nodup
  | [] => by simp [uniq]
  | y :: l => by
    simp only [uniq, List.nodup_cons, List.mem_filter, decide_eq_true_eq]
    exact ⟨fun h => h.2 rfl, (nodup_uniq l).filter _⟩

theorem uniq_of_nodup : ∀ {l : List String}, l.Nodup → uniq l = l
  | [], _ => rfl
  | y :: l, h => by
    simp only [List.nodup_cons] at h
    simp only [uniq, uniq_of_nodup h.2, List.cons.injEq, true_and, List.filter_eq_self, decide_eq_true_eq]
    intro x hx e
    exact h.1 (e ▸ hx)

/-! ## Leaves -/

theorem leavesList_append : ∀ a b : List VTuple, leavesList (a ++ b) = leavesList a ++ leavesList b
  | [], b => rfl
  | t :: a, b => by simp [leavesList, leavesList_append a b]

theorem leavesList_vals : ∀ vs : List String, leavesList (vs.map Tup.val) = vs
  | [] => rfl
  | v :: vs => by simp [leavesList, leaves, leavesList_vals vs]

theorem leaves_vals (vs : List String) : leaves (.tup (vs.map Tup.val)) = vs := by simp [leaves, leavesList_vals]

theorem fromVars_cases (vs : List String) (b : Bool) :
    (∃ x, uniq vs = [x] ∧ fromVars vs b = .val x) ∨ fromVars vs b = .tup ((uniq vs).map .val) := by
  unfold fromVars
  split
  · rename_i x h; exact Or.inl ⟨x, h, rfl⟩
  · exact Or.inr rfl

theorem fromVars_false (vs : List String) : fromVars vs false = .tup ((uniq vs).map .val) := by
  unfold fromVars; split
  · rename_i h; cases h
  · rfl

theorem leaves_fromVars (vs : List String) (b : Bool) : leaves (fromVars vs b) = uniq vs := by
  rcases fromVars_cases vs b with ⟨x, h, e⟩ | e
  · rw [e, h]; rfl
  · rw [e, leaves_vals]

theorem mem_fromVars {x : String} {vs : List String} {b : Bool} : x ∈ leaves (fromVars vs b) ↔ x ∈ vs := by
  rw [leaves_fromVars, mem_uniq]

theorem nodup_fromVars (vs : List String) (b : Bool) : (leaves (fromVars vs b)).Nodup := by
  rw [leaves_fromVars]; exact nodup_uniq _

theorem mem_vars {x : String} {t : VTuple} : x ∈ vars t ↔ x ∈ leaves t := mem_uniq

theorem mem_subtuple {x : String} {t : VTuple} {vs : List String} : x ∈ leaves (subtuple t vs) ↔ x ∈ vs ∧ x ∈ leaves t := by
  unfold subtuple; rw [leaves_vals]; simp [List.mem_filter, mem_vars]

theorem nodup_subtuple {t : VTuple} {vs : List String} (h : vs.Nodup) : (leaves (subtuple t vs)).Nodup := by
  unfold subtuple; rw [leaves_vals]; exact h.filter _

/-! ## Accessors -/

mutual
theorem accessorOf_isSome (x : String) : ∀ t : VTuple, (accessorOf x t).isSome = true ↔ x ∈ leaves t
  | .val y => by
    unfold accessorOf leaves; by_cases h : x = y <;> simp [h]
  | .tup ts => by unfold accessorOf leaves; exact accessorOfList_isSome x 0 ts
theorem accessorOfList_isSome (x : String) : ∀ (i : Nat) (ts : List VTuple), (accessorOfList x i ts).isSome = true ↔ x ∈ leavesList ts
  | _, [] => by simp [accessorOfList, leavesList]
  | i, t :: ts => by
    have h1 := accessorOf_isSome x t
    have h2 := accessorOfList_isSome x (i + 1) ts
    unfold accessorOfList leavesList
    rw [List.mem_append]
    cases h : accessorOf x t with
    | some a => simp [h, ← h1]
    | none => simp only [h2]; simp [h, ← h1]
end

theorem accessorOf_none {x : String} {t : VTuple} : accessorOf x t = none ↔ x ∉ leaves t := by
  rw [← accessorOf_isSome]; cases accessorOf x t <;> simp

theorem accessorOfList_none {x : String} {i : Nat} {ts : List VTuple} : accessorOfList x i ts = none ↔ x ∉ leavesList ts := by
  rw [← accessorOfList_isSome x i]; cases accessorOfList x i ts <;> simp

theorem accessorOf_mem {x : String} {t : VTuple} {a : List Nat} (h : accessorOf x t = some a) : x ∈ leaves t := by
  rw [← accessorOf_isSome, h]; rfl

/-- The tuple `t` stands for the assignment by way of the shape `g`: the accessor of a variable finds its value, and if no variable occurs twice
the tuple is exactly the tuple of that shape. -/
structure Rep (g : VTuple) (σ : Asg F) (t : Tup (Val F)) : Prop where
  acc : ∀ x a, accessorOf x g = some a → t.atPath a = some (.val (σ x))
  exact : (leaves g).Nodup → t = evalV σ g
  fst : ∀ g1 gs, g = .tup (g1 :: gs) → (leaves g1).Nodup → t.at? 0 = some (evalV σ g1)

/-- `Rep` for a list of shapes. -/
structure Reps (gs : List VTuple) (σ : Asg F) (ts : List (Tup (Val F))) : Prop where
  acc : ∀ x i a, accessorOfList x i gs = some a → ∃ j b, a = (i + j) :: b ∧ (ts[j]?).bind (fun u => u.atPath b) = some (.val (σ x))
  exact : (leavesList gs).Nodup → ts = evalVs σ gs
  fst : ∀ g1 gs', gs = g1 :: gs' → (leaves g1).Nodup → ts[0]? = some (evalV σ g1)

theorem Reps.nil {σ : Asg F} : Reps [] σ [] :=
  ⟨by intro x i a h; simp [accessorOfList] at h, fun _ => rfl, by intro g1 gs' h; cases h⟩

theorem Reps.cons {σ : Asg F} {g gs t ts} (h : Rep g σ t) (hs : Reps gs σ ts) : Reps (g :: gs) σ (t :: ts) := by
  constructor
  · intro x i a hx
    unfold accessorOfList at hx
    split at hx
    · rename_i a' ha
      cases hx
      exact ⟨0, a', rfl, by simpa using h.acc x a' ha⟩
    · obtain ⟨j, b, e, hb⟩ := hs.acc x _ _ hx
      exact ⟨j + 1, b, by rw [e]; congr 1; omega, by simpa using hb⟩
  · intro hn
    rw [leavesList, List.nodup_append] at hn
    rw [evalVs, h.exact hn.1, hs.exact hn.2.1]
  · intro g1 gs' e hn
    cases e
    simp [h.exact hn]

theorem Rep.tup {σ : Asg F} {gs ts} (h : Reps gs σ ts) : Rep (.tup gs) σ (.tup ts) := by
  constructor
  · intro x a hx
    unfold accessorOf at hx
    obtain ⟨j, b, e, hb⟩ := h.acc x _ _ hx
    rw [e]
    simpa [Tup.atPath, Tup.at?] using hb
  · intro hn
    unfold leaves at hn
    rw [evalV, h.exact hn]
  · intro g1 gs' e hn
    cases e
    simpa [Tup.at?] using h.fst g1 gs' rfl hn

theorem Rep.val {σ : Asg F} (x : String) : Rep (.val x) σ (.val (σ x)) := by
  constructor
  · intro y a hy
    unfold accessorOf at hy
    split at hy
    · rename_i e; cases hy; rw [e]; rfl
    · cases hy
  · intro _; rfl
  · intro g1 gs e; cases e

mutual
theorem Rep.evalV (σ : Asg F) : ∀ g : VTuple, Rep g σ (evalV σ g)
  | .val x => Rep.val x
  | .tup gs => Rep.tup (Reps.evalVs σ gs)
theorem Reps.evalVs (σ : Asg F) : ∀ gs : List VTuple, Reps gs σ (evalVs σ gs)
  | [] => Reps.nil
  | g :: gs => Reps.cons (Rep.evalV σ g) (Reps.evalVs σ gs)
end

mutual
theorem evalV_congr {σ τ : Asg F} : ∀ g : VTuple, (∀ x ∈ leaves g, σ x = τ x) → evalV σ g = evalV τ g
  | .val x, h => by simp [Plan.evalV, h x (by simp [leaves])]
  | .tup gs, h => by rw [Plan.evalV, Plan.evalV, evalVs_congr gs (by simpa [leaves] using h)]
theorem evalVs_congr {σ τ : Asg F} : ∀ gs : List VTuple, (∀ x ∈ leavesList gs, σ x = τ x) → evalVs σ gs = evalVs τ gs
  | [], _ => rfl
  | g :: gs, h => by
    rw [Plan.evalVs, Plan.evalVs, evalV_congr g (fun x hx => h x (by simp [leavesList, hx])),
      evalVs_congr gs (fun x hx => h x (by simp [leavesList, hx]))]
end

mutual
theorem evalV_inj {σ τ : Asg F} : ∀ g : VTuple, evalV σ g = evalV τ g → ∀ x ∈ leaves g, σ x = τ x
  | .val y, h, x, hx => by
    simp only [leaves, List.mem_singleton] at hx
    subst hx
    simpa [Plan.evalV] using h
  | .tup gs, h, x, hx => by
    simp only [Plan.evalV, Tup.tup.injEq] at h
    exact evalVs_inj gs h x (by simpa [leaves] using hx)
theorem evalVs_inj {σ τ : Asg F} : ∀ gs : List VTuple, evalVs σ gs = evalVs τ gs → ∀ x ∈ leavesList gs, σ x = τ x
  | [], _, x, hx => by simp [leavesList] at hx
  | g :: gs, h, x, hx => by
    simp only [Plan.evalVs, List.cons.injEq] at h
    simp only [leavesList, List.mem_append] at hx
    rcases hx with hx | hx
    · exact evalV_inj g h.1 x hx
    · exact evalVs_inj gs h.2 x hx
end

theorem Rep.congr {σ τ : Asg F} {g t} (h : Rep g σ t) (he : ∀ x ∈ leaves g, σ x = τ x) : Rep g τ t := by
  constructor
  · intro x a hx; rw [h.acc x a hx, he x (accessorOf_mem hx)]
  · intro hn; rw [h.exact hn, evalV_congr g he]
  · intro g1 gs e hn
    rw [h.fst g1 gs e hn, evalV_congr g1 (fun x hx => he x (by rw [e]; simp [leaves, leavesList, hx]))]

theorem evalVs_vals (σ : Asg F) : ∀ vs : List String, evalVs σ (vs.map Tup.val) = vs.map (fun x => Tup.val (σ x))
  | [] => rfl
  | v :: vs => by simp [Plan.evalVs, Plan.evalV, evalVs_vals σ vs]

theorem evalV_vals (σ : Asg F) (vs : List String) : evalV σ (.tup (vs.map Tup.val)) = flat (vs.map σ) := by
  simp [Plan.evalV, evalVs_vals, flat, Function.comp_def]

theorem Rep.pair {σ : Asg F} {g1 g2 t1 t2} (h1 : Rep g1 σ t1) (h2 : Rep g2 σ t2) : Rep (.tup [g1, g2]) σ (.tup [t1, t2]) :=
  Rep.tup (Reps.cons h1 (Reps.cons h2 Reps.nil))

theorem Rep.triple {σ : Asg F} {g1 g2 g3 t1 t2 t3} (h1 : Rep g1 σ t1) (h2 : Rep g2 σ t2) (h3 : Rep g3 σ t3) :
    Rep (.tup [g1, g2, g3]) σ (.tup [t1, t2, t3]) :=
  Rep.tup (Reps.cons h1 (Reps.cons h2 (Reps.cons h3 Reps.nil)))

/-! ## Expressions for shapes -/

theorem mkAccess_eq {a : List Nat} {e : Expr F} (h : mkAccess a = some e) : e = .access a := by
  unfold mkAccess at h; split at h <;> simp_all

theorem eval_access {X : Ext F} {t : Tup (Val F)} {a : List Nat} {u} (h : t.atPath a = some u) : (Expr.access a).eval X t = .ok u := by
  rw [Expr.eval.eq_2]; simp [h]

theorem eval_termExpr {X : Ext F} {g : VTuple} {σ : Asg F} {t} (h : Rep g σ t) {a : Term String F} {e} (he : termExpr g a = some e) :
    e.eval X t = .ok (.val (a.val σ)) := by
  cases a with
  | const c => simp only [termExpr, Option.some.injEq] at he; subst he; rw [Expr.eval.eq_3]; rfl
  | var x =>
    simp only [termExpr, Option.bind_eq_some_iff] at he
    obtain ⟨a, ha, he⟩ := he
    rw [mkAccess_eq he]
    exact eval_access (h.acc x a ha)

theorem termExpr_mem {g : VTuple} {a : Term String F} {e} (he : termExpr g a = some e) : ∀ x, a.var? = some x → x ∈ leaves g := by
  intro x hx
  cases a with
  | const c => simp [Term.var?] at hx
  | var y =>
    simp only [Term.var?, Option.some.injEq] at hx
    subst hx
    simp only [termExpr, Option.bind_eq_some_iff] at he
    obtain ⟨a, ha, _⟩ := he
    exact accessorOf_mem ha

theorem evalList_termExprs {X : Ext F} {g : VTuple} {σ : Asg F} {t} (h : Rep g σ t) :
    ∀ {as : List (Term String F)} {es}, termExprs g as = some es → Expr.evalList X es t = .ok ((as.map (Term.val σ)).map .val)
  | [], es, he => by simp only [termExprs, Option.some.injEq] at he; subst he; rw [Expr.evalList.eq_1]; rfl
  | a :: as, es, he => by
    simp only [termExprs, Option.bind_eq_some_iff, Option.map_eq_some_iff] at he
    obtain ⟨e, h1, es', h2, rfl⟩ := he
    rw [Expr.evalList.eq_2, eval_termExpr h h1, Outcome.bind, evalList_termExprs h h2, Outcome.bind]; rfl

mutual
theorem eval_projection {X : Ext F} {self : VTuple} {σ : Asg F} {t} (h : Rep self σ t) :
    ∀ {g : VTuple} {e : Expr F}, projection self g = some e → e.eval X t = .ok (evalV σ g)
  | .val x, e, he => by
    simp only [projection, Option.bind_eq_some_iff] at he
    obtain ⟨a, ha, he⟩ := he
    rw [mkAccess_eq he]
    exact eval_access (h.acc x a ha)
  | .tup gs, e, he => by
    simp only [projection, Option.map_eq_some_iff] at he
    obtain ⟨es, h1, rfl⟩ := he
    rw [Expr.eval.eq_1, evalList_projection h h1]; rfl
theorem evalList_projection {X : Ext F} {self : VTuple} {σ : Asg F} {t} (h : Rep self σ t) :
    ∀ {gs : List VTuple} {es : List (Expr F)}, projectionList self gs = some es → Expr.evalList X es t = .ok (evalVs σ gs)
  | [], es, he => by simp only [projectionList, Option.some.injEq] at he; subst he; rw [Expr.evalList.eq_1]; rfl
  | g :: gs, es, he => by
    simp only [projectionList, Option.bind_eq_some_iff, Option.map_eq_some_iff] at he
    obtain ⟨e, h1, es', h2, rfl⟩ := he
    rw [Expr.evalList.eq_2, eval_projection h h1, Outcome.bind, evalList_projection h h2]; rfl
end

mutual
theorem projection_mem {self : VTuple} : ∀ {g : VTuple} {e : Expr F}, projection self g = some e → ∀ x ∈ leaves g, x ∈ leaves self
  | .val y, e, he, x, hx => by
    simp only [projection, Option.bind_eq_some_iff] at he
    obtain ⟨a, ha, he⟩ := he
    simp only [leaves, List.mem_singleton] at hx
    subst hx
    exact accessorOf_mem ha
  | .tup gs, e, he, x, hx => by
    simp only [projection, Option.map_eq_some_iff] at he
    obtain ⟨es, h1, rfl⟩ := he
    exact projectionList_mem h1 x (by simpa [leaves] using hx)
theorem projectionList_mem {self : VTuple} :
    ∀ {gs : List VTuple} {es : List (Expr F)}, projectionList self gs = some es → ∀ x ∈ leavesList gs, x ∈ leaves self
  | [], es, he, x, hx => by simp [leavesList] at hx
  | g :: gs, es, he, x, hx => by
    simp only [projectionList, Option.bind_eq_some_iff, Option.map_eq_some_iff] at he
    obtain ⟨e, h1, es', h2, rfl⟩ := he
    simp only [leavesList, List.mem_append] at hx
    rcases hx with hx | hx
    · exact projection_mem h1 x hx
    · exact projectionList_mem h2 x hx
end

mutual
theorem unitValue_evalV (σ : Asg F) : ∀ {g : VTuple} {t : Tup (Val F)}, unitValue g = some t → t = evalV σ g ∧ leaves g = []
  | .val y, t, h => by simp [unitValue] at h
  | .tup gs, t, h => by
    simp only [unitValue, Option.map_eq_some_iff] at h
    obtain ⟨ts, h1, rfl⟩ := h
    obtain ⟨h2, h3⟩ := unitValueList_evalVs σ h1
    exact ⟨by rw [Plan.evalV, h2], by simpa [leaves] using h3⟩
theorem unitValueList_evalVs (σ : Asg F) :
    ∀ {gs : List VTuple} {ts : List (Tup (Val F))}, unitValueList gs = some ts → ts = evalVs σ gs ∧ leavesList gs = []
  | [], ts, h => by simp only [unitValueList, Option.some.injEq] at h; subst h; exact ⟨rfl, rfl⟩
  | g :: gs, ts, h => by
    simp only [unitValueList, Option.bind_eq_some_iff, Option.map_eq_some_iff] at h
    obtain ⟨u, h1, us, h2, rfl⟩ := h
    obtain ⟨a1, a2⟩ := unitValue_evalV σ h1
    obtain ⟨b1, b2⟩ := unitValueList_evalVs σ h2
    exact ⟨by rw [Plan.evalVs, a1, b1], by simp [leavesList, a2, b2]⟩
end

/-! ## Assignments -/

theorem asValues_vals : ∀ vs : List (Val F), asValues (vs.map .val) = .ok vs
  | [] => by rw [List.map_nil, asValues.eq_1]
  | v :: vs => by rw [List.map_cons, asValues.eq_2, asValue, Outcome.bind, asValues_vals vs]; rfl

theorem eval_assignExpr {X : Ext F} {g : VTuple} {σ : Asg F} {t} (h : Rep g σ t) {a : AExpr String F} {e} (he : assignExpr g a = some e) :
    e.eval X t = (a.val X σ).bind (fun v => .ok (.val v)) := by
  cases a with
  | bin op a b =>
    simp only [assignExpr, Option.bind_eq_some_iff, Option.map_eq_some_iff] at he
    obtain ⟨x, h1, y, h2, rfl⟩ := he
    rw [Expr.eval.eq_4, eval_termExpr h h1, Outcome.bind, eval_termExpr h h2, Outcome.bind]; rfl
  | un op a =>
    simp only [assignExpr, Option.map_eq_some_iff] at he
    obtain ⟨x, h1, rfl⟩ := he
    rw [Expr.eval.eq_5, eval_termExpr h h1, Outcome.bind]; rfl
  | ite c a b =>
    simp only [assignExpr, Option.bind_eq_some_iff, Option.map_eq_some_iff] at he
    obtain ⟨x, h1, y, h2, z, h3, rfl⟩ := he
    rw [Expr.eval.eq_6, eval_termExpr h h1, Outcome.bind, asValue, Outcome.bind, AExpr.val]
    cases (c.val σ).asBool? with
    | none => rfl
    | some b => cases b <;> simp [eval_termExpr h h2, eval_termExpr h h3, Outcome.bind]
  | call f as =>
    simp only [assignExpr, Option.map_eq_some_iff] at he
    obtain ⟨es, h1, rfl⟩ := he
    rw [Expr.eval.eq_7, evalList_termExprs h h1, Outcome.bind, asValues_vals, Outcome.bind, AExpr.val]
  | new f as =>
    simp only [assignExpr, Option.map_eq_some_iff] at he
    obtain ⟨es, h1, rfl⟩ := he
    rw [Expr.eval.eq_8, evalList_termExprs h h1, Outcome.bind, asValues_vals, Outcome.bind, AExpr.val]; rfl

/-! ## Permutations -/

theorem argPos_get {x : String} : ∀ {as : List (Term String F)} {i}, argPos x as = some i → as[i]? = some (.var x)
  | [], i, h => by simp [argPos] at h
  | .var y :: as, i, h => by
    simp only [argPos] at h
    split at h
    · rename_i e; simp only [Option.some.injEq] at h; subst h; simp [e]
    · simp only [Option.map_eq_some_iff] at h
      obtain ⟨j, h1, rfl⟩ := h
      simpa using argPos_get h1
  | .const c :: as, i, h => by
    simp only [argPos, Option.map_eq_some_iff] at h
    obtain ⟨j, h1, rfl⟩ := h
    simpa using argPos_get h1

theorem argPos_inj {x y : String} {as : List (Term String F)} {i} (h : argPos x as = some i) (h' : argPos y as = some i) : x = y := by
  have h1 := argPos_get h
  rw [argPos_get h'] at h1
  simpa using h1.symm

theorem flat_at {vs : List (Val F)} {i : Nat} {v} (h : vs[i]? = some v) : (flat vs).atPath [i] = some (.val v) := by
  simp [flat, Tup.atPath, Tup.at?, h]

/-- What a permutation does to a flat tuple: the positions not visited before are found. -/
structure PermRep (visited : List Nat) (as : List (Term String F)) (g : VTuple) (σ : Asg F) (visited' : List Nat) (t : Tup (Val F)) : Prop where
  acc : ∀ x a, accessorOf x g = some a → (∀ i, argPos x as = some i → i ∉ visited) → t.atPath a = some (.val (σ x))
  exact : (leaves g).Nodup → (∀ x ∈ leaves g, ∀ i, argPos x as = some i → i ∉ visited) → t = evalV σ g
  fst : ∀ g1 gs, g = .tup (g1 :: gs) → (leaves g1).Nodup → (∀ x ∈ leaves g1, ∀ i, argPos x as = some i → i ∉ visited) →
    t.at? 0 = some (evalV σ g1)
  mem : ∀ i, i ∈ visited' ↔ i ∈ visited ∨ ∃ x ∈ leaves g, argPos x as = some i
  all : ∀ x ∈ leaves g, ∃ i, argPos x as = some i

/-- `PermRep` on lists. -/
structure PermReps (visited : List Nat) (as : List (Term String F)) (gs : List VTuple) (σ : Asg F) (visited' : List Nat)
    (ts : List (Tup (Val F))) : Prop where
  acc : ∀ x k a, accessorOfList x k gs = some a → (∀ i, argPos x as = some i → i ∉ visited) →
    ∃ j b, a = (k + j) :: b ∧ (ts[j]?).bind (fun u => u.atPath b) = some (.val (σ x))
  exact : (leavesList gs).Nodup → (∀ x ∈ leavesList gs, ∀ i, argPos x as = some i → i ∉ visited) → ts = evalVs σ gs
  fst : ∀ g1 gs', gs = g1 :: gs' → (leaves g1).Nodup → (∀ x ∈ leaves g1, ∀ i, argPos x as = some i → i ∉ visited) →
    ts[0]? = some (evalV σ g1)
  mem : ∀ i, i ∈ visited' ↔ i ∈ visited ∨ ∃ x ∈ leavesList gs, argPos x as = some i
  all : ∀ x ∈ leavesList gs, ∃ i, argPos x as = some i

mutual
theorem permutation_spec {X : Ext F} {σ : Asg F} {as : List (Term String F)} :
    ∀ {g : VTuple} {visited p v' e}, permutation as visited g = some (p, v') → permExpr p = some e →
      ∃ t, e.eval X (flat (as.map (Term.val σ))) = .ok t ∧ PermRep visited as g σ v' t
  | .val x, visited, p, v', e, h, he => by
    simp only [permutation, Option.map_eq_some_iff] at h
    obtain ⟨i, hi, h⟩ := h
    by_cases hv : i ∈ visited
    · rw [if_pos hv] at h
      simp only [Prod.mk.injEq] at h
      obtain ⟨rfl, rfl⟩ := h
      simp only [permExpr, permExprList, Option.map_some, Option.some.injEq] at he
      subst he
      refine ⟨.tup [], by rw [Expr.eval.eq_1, Expr.evalList.eq_1]; rfl, ⟨?_, ?_, ?_, ?_, ?_⟩⟩
      · intro y a ha hy
        have := accessorOf_mem ha
        simp only [leaves, List.mem_singleton] at this
        subst this
        exact absurd hv (hy i hi)
      · intro _ hy
        exact absurd hv (hy x (by simp [leaves]) i hi)
      · intro g1 gs e; cases e
      · intro j
        simp only [leaves, List.mem_singleton, exists_eq_left, hi, Option.some.injEq]
        constructor
        · exact Or.inl
        · rintro (h | h)
          · exact h
          · exact h ▸ hv
      · intro y hy
        simp only [leaves, List.mem_singleton] at hy
        subst hy
        exact ⟨i, hi⟩
    · rw [if_neg hv] at h
      simp only [Prod.mk.injEq] at h
      obtain ⟨rfl, rfl⟩ := h
      simp only [permExpr] at he
      have hget : (as.map (Term.val σ))[i]? = some (σ x) := by
        rw [List.getElem?_map, argPos_get hi]; rfl
      refine ⟨.val (σ x), by rw [mkAccess_eq he]; exact eval_access (flat_at hget), ⟨?_, ?_, ?_, ?_, ?_⟩⟩
      · intro y a ha _
        exact (Rep.val x).acc y a ha
      · intro _ _; rfl
      · intro g1 gs e; cases e
      · intro j
        rw [List.mem_cons]
        simp only [leaves, List.mem_singleton, exists_eq_left, hi, Option.some.injEq]
        constructor
        · rintro (h | h)
          · exact Or.inr h.symm
          · exact Or.inl h
        · rintro (h | h)
          · exact Or.inr h
          · exact Or.inl h.symm
      · intro y hy
        simp only [leaves, List.mem_singleton] at hy
        subst hy
        exact ⟨i, hi⟩
  | .tup gs, visited, p, v', e, h, he => by
    simp only [permutation, Option.map_eq_some_iff] at h
    obtain ⟨r, hr, h⟩ := h
    simp only [Prod.mk.injEq] at h
    obtain ⟨rfl, rfl⟩ := h
    simp only [permExpr, Option.map_eq_some_iff] at he
    obtain ⟨es, h1, rfl⟩ := he
    obtain ⟨ts, h2, h3⟩ := permutationList_spec (X := X) (σ := σ) (show permutationList as visited gs = some (r.1, r.2) from hr) h1
    refine ⟨.tup ts, by rw [Expr.eval.eq_1, h2]; rfl, ⟨?_, ?_, ?_, ?_, ?_⟩⟩
    · intro x a ha hx
      unfold accessorOf at ha
      obtain ⟨j, b, e, hb⟩ := h3.acc x _ _ ha hx
      rw [e]
      simpa [Tup.atPath, Tup.at?] using hb
    · intro hn hx
      unfold leaves at hn hx
      rw [evalV, h3.exact hn hx]
    · intro g1 gs' e hn hx
      cases e
      simpa [Tup.at?] using h3.fst g1 gs' rfl hn hx
    · intro i; rw [h3.mem, leaves]
    · intro x hx; exact h3.all x (by simpa [leaves] using hx)
theorem permutationList_spec {X : Ext F} {σ : Asg F} {as : List (Term String F)} :
    ∀ {gs : List VTuple} {visited ps v' es}, permutationList as visited gs = some (ps, v') → permExprList ps = some es →
      ∃ ts, Expr.evalList X es (flat (as.map (Term.val σ))) = .ok ts ∧ PermReps visited as gs σ v' ts
  | [], visited, ps, v', es, h, he => by
    simp only [permutationList, Option.some.injEq, Prod.mk.injEq] at h
    obtain ⟨rfl, rfl⟩ := h
    simp only [permExprList, Option.some.injEq] at he
    subst he
    refine ⟨[], by rw [Expr.evalList.eq_1], ⟨?_, fun _ _ => rfl, (by intro g1 gs' e; cases e), by simp [leavesList], by simp [leavesList]⟩⟩
    intro x k a ha; simp [accessorOfList] at ha
  | g :: gs, visited, ps, v', es, h, he => by
    simp only [permutationList, Option.bind_eq_some_iff, Option.map_eq_some_iff] at h
    obtain ⟨r, hr, r', hr', h⟩ := h
    simp only [Prod.mk.injEq] at h
    obtain ⟨rfl, rfl⟩ := h
    simp only [permExprList, Option.bind_eq_some_iff, Option.map_eq_some_iff] at he
    obtain ⟨e, he, es', hes, rfl⟩ := he
    obtain ⟨t, ht, q⟩ := permutation_spec (X := X) (σ := σ) (show permutation as visited g = some (r.1, r.2) from hr) he
    obtain ⟨ts, hts, qs⟩ := permutationList_spec (X := X) (σ := σ) (show permutationList as r.2 gs = some (r'.1, r'.2) from hr') hes
    have fresh : ∀ x, x ∉ leaves g → (∀ i, argPos x as = some i → i ∉ visited) → ∀ i, argPos x as = some i → i ∉ r.2 := by
      intro x hx hv i hi hm
      rw [q.mem] at hm
      rcases hm with hm | ⟨y, hy, hyi⟩
      · exact hv i hi hm
      · exact hx (argPos_inj hi hyi ▸ hy)
    refine ⟨t :: ts, by rw [Expr.evalList.eq_2, ht, Outcome.bind, hts]; rfl, ⟨?_, ?_, ?_, ?_, ?_⟩⟩
    · intro x k a ha hv
      unfold accessorOfList at ha
      split at ha
      · rename_i a' ha'
        cases ha
        exact ⟨0, a', rfl, by simpa using q.acc x a' ha' hv⟩
      · rename_i hnone
        obtain ⟨j, b, e, hb⟩ := qs.acc x _ _ ha (fresh x (accessorOf_none.mp hnone) hv)
        exact ⟨j + 1, b, by rw [e]; congr 1; omega, by simpa using hb⟩
    · intro hn hv
      rw [leavesList, List.nodup_append] at hn
      rw [Plan.evalVs, q.exact hn.1 (fun x hx => hv x (by simp [leavesList, hx])), qs.exact hn.2.1]
      intro x hx
      exact fresh x (fun hx' => hn.2.2 x hx' x hx rfl) (hv x (by simp [leavesList, hx]))
    · intro g1 gs' e hn hv
      cases e
      simp [q.exact hn hv]
    · intro i
      rw [qs.mem, q.mem]
      simp only [leavesList, List.mem_append]
      constructor
      · rintro ((h | ⟨x, hx, hi⟩) | ⟨x, hx, hi⟩)
        · exact Or.inl h
        · exact Or.inr ⟨x, Or.inl hx, hi⟩
        · exact Or.inr ⟨x, Or.inr hx, hi⟩
      · rintro (h | ⟨x, hx | hx, hi⟩)
        · exact Or.inl (Or.inl h)
        · exact Or.inl (Or.inr ⟨x, hx, hi⟩)
        · exact Or.inr ⟨x, hx, hi⟩
    · intro x hx
      simp only [leavesList, List.mem_append] at hx
      rcases hx with hx | hx
      · exact q.all x hx
      · exact qs.all x hx
end

/-- Permuting a flat fact gives a tuple that stands for the same assignment. -/
theorem permutation_rep {X : Ext F} (σ : Asg F) {as : List (Term String F)} {g : VTuple} {p v' e} (h : permutation as [] g = some (p, v'))
    (he : permExpr p = some e) : ∃ t, e.eval X (flat (as.map (Term.val σ))) = .ok t ∧ Rep g σ t := by
  obtain ⟨t, ht, q⟩ := permutation_spec (X := X) (σ := σ) h he
  exact ⟨t, ht, ⟨fun x a ha => q.acc x a ha (by simp), fun hn => q.exact hn (by simp), fun g1 gs e hn => q.fst g1 gs e hn (by simp)⟩⟩

theorem permutation_mem {as : List (Term String F)} : ∀ {g : VTuple} {p v'}, permutation as [] g = some (p, v') →
    (∃ e : Expr F, permExpr p = some e) → ∀ x ∈ leaves g, ∃ i, argPos x as = some i := by
  intro g p v' h ⟨e, he⟩
  obtain ⟨t, ht, q⟩ := permutation_spec (X := ⟨fun a _ => a, fun a _ => a, fun a _ => a, fun a _ => a, id, fun _ => true, fun _ _ => true,
    fun _ _ => true, fun _ _ => true, fun _ _ _ => .panic, fun _ _ => .panic, fun _ _ => 0⟩) (σ := fun _ => .bool true) h he
  exact q.all

end Scallop.Plan
