import Verif.Proof.VarTuple

/-!
# The dataflow of a plan computes the plan
-/

namespace Scallop.Plan

open Scallop.Back Scallop.Ram

variable {F : Type}

/-! ## States -/

/-- A state has at least what another one has. -/
structure St.Le (s s' : St F) : Prop where
  temps : ∀ q ∈ s.temps, q ∈ s'.temps
  negs : ∀ q ∈ s.negs, q ∈ s'.negs
  perms : ∀ q ∈ s.perms, q ∈ s'.perms

theorem St.Le.refl (s : St F) : St.Le s s := ⟨fun _ h => h, fun _ h => h, fun _ h => h⟩

theorem St.Le.trans {s s' s'' : St F} (h : St.Le s s') (h' : St.Le s' s'') : St.Le s s'' :=
  ⟨fun q hq => h'.1 q (h.1 q hq), fun q hq => h'.2 q (h.2 q hq), fun q hq => h'.3 q (h.3 q hq)⟩

theorem Solves.mono {W : World F} {s s' : St F} (h : St.Le s s') (hs : Solves W s') : Solves W s :=
  ⟨fun n d hd => hs.temps n d (h.1 _ hd), fun n d hd => hs.negs n d (h.2 _ hd), fun p π hp => hs.perms p π (h.3 _ hp)⟩

theorem createTemp_le (s : St F) (d : Dataflow F) : St.Le s (createTemp s d).2 :=
  ⟨fun q h => by simp [createTemp, h], fun q h => h, fun q h => h⟩

theorem createNeg_le (s : St F) (d : Dataflow F) : St.Le s (createNeg s d).2 :=
  ⟨fun q h => h, fun q h => by simp [createNeg, h], fun q h => h⟩

theorem createTemp_den {W : World F} {s : St F} {d : Dataflow F} (h : Solves W (createTemp s d).2) (t) :
    Den W (createTemp s d).1 t ↔ Den W d t := by
  have := h.temps ("#temp#" ++ toString s.next) d (by simp [createTemp]) t
  simpa [createTemp, Den] using this

theorem createNeg_den {W : World F} {s : St F} {d : Dataflow F} (h : Solves W (createNeg s d).2) (t) :
    Den W (createNeg s d).1 t ↔ Den W d t := by
  have := h.negs ("#ntemp#" ++ toString s.next) d (by simp [createNeg]) t
  simpa [createNeg, Den] using this

theorem process_le (p : DProp) (s : St F) (d : Dataflow F) : St.Le s (process p s d).2 := by
  unfold process
  split
  · split
    · exact createNeg_le s d
    · split
      · exact St.Le.refl s
      · exact createTemp_le s d
  · exact St.Le.refl s

theorem process_den {W : World F} {p : DProp} {s : St F} {d : Dataflow F} (h : Solves W (process p s d).2) (t) :
    Den W (process p s d).1 t ↔ Den W d t := by
  unfold process at h ⊢
  split at h
  · rename_i h1
    rw [if_pos h1]
    split at h
    · rename_i h2
      rw [if_pos h2]
      exact createNeg_den h t
    · rename_i h2
      rw [if_neg h2]
      split at h
      · rename_i h3
        rw [if_pos h3]
        simp [Den]
      · rename_i h3
        rw [if_neg h3]
        exact createTemp_den h t
  · rename_i h1
    rw [if_neg h1]

/-! ## Correctness -/

/-- The tuples of the dataflow stand for exactly the assignments in `S`, by way of the shape `g`. -/
structure Corr (W : World F) (d : Dataflow F) (S : Asg F → Prop) (g : VTuple) : Prop where
  sound : ∀ t, Den W d t → ∃ σ, S σ ∧ Rep g σ t
  complete : ∀ σ, S σ → ∃ t, Den W d t ∧ Rep g σ t

theorem Corr.congr {W : World F} {d d' : Dataflow F} {S g} (h : Corr W d S g) (he : ∀ t, Den W d' t ↔ Den W d t) : Corr W d' S g :=
  ⟨fun t ht => h.sound t ((he t).mp ht), fun σ hσ => by
    obtain ⟨t, ht, hr⟩ := h.complete σ hσ
    exact ⟨t, (he t).mpr ht, hr⟩⟩

/-- A projection from one shape to another. -/
theorem Corr.project {W : World F} {d : Dataflow F} {S g g'} {e : Expr F} (h : Corr W d S g) (he : projection g g' = some e) :
    Corr W (.project d e) S g' := by
  constructor
  · rintro t ⟨u, hu, hev⟩
    obtain ⟨σ, hσ, hr⟩ := h.sound u hu
    rw [eval_projection hr he] at hev
    cases hev
    exact ⟨σ, hσ, Rep.evalV σ g'⟩
  · intro σ hσ
    obtain ⟨u, hu, hr⟩ := h.complete σ hσ
    exact ⟨evalV σ g', ⟨u, hu, eval_projection hr he⟩, Rep.evalV σ g'⟩

theorem Corr.process {W : World F} {p : DProp} {s : St F} {d : Dataflow F} {S g} (h : Corr W d S g)
    (hs : Solves W (process p s d).2) : Corr W (process p s d).1 S g := h.congr (process_den hs)

/-! ## Constraints -/

theorem eval_conj {X : Ext F} {t : Tup (Val F)} : ∀ (es : List (Expr F)) (e : Expr F),
    (es.foldl (fun a b => Expr.bin .and a b) e).eval X t = .ok (.val (.bool true)) ↔
      e.eval X t = .ok (.val (.bool true)) ∧ ∀ c ∈ es, c.eval X t = .ok (.val (.bool true))
  | [], e => by simp
  | c :: es, e => by
    rw [List.foldl_cons, eval_conj es, List.forall_mem_cons, ← and_assoc]
    refine and_congr_left fun _ => ?_
    rw [Expr.eval.eq_4]
    cases h1 : e.eval X t with
    | undef => simp [Outcome.bind]
    | panic => simp [Outcome.bind]
    | ok u =>
      cases h2 : c.eval X t with
      | undef => simp [Outcome.bind]
      | panic => simp [Outcome.bind]
      | ok w =>
        simp only [Outcome.bind]
        cases u with
        | tup us => simp [asValue, Outcome.bind]
        | val x =>
          cases w with
          | tup us => simp [asValue, Outcome.bind]
          | val y =>
            simp only [asValue, Outcome.bind, Outcome.ok.injEq, Tup.val.injEq]
            cases x <;> cases y <;>
              simp (config := { decide := false }) [evalBin, evalInt, evalFloat] <;> (try split) <;> simp_all [evalInt, evalFloat]

theorem conj_true {X : Ext F} {t : Tup (Val F)} {es : List (Expr F)} {e : Expr F} (h : conj es = some e) :
    e.eval X t = .ok (.val (.bool true)) ↔ ∀ c ∈ es, c.eval X t = .ok (.val (.bool true)) := by
  cases es with
  | nil => simp [conj] at h
  | cons c es =>
    simp only [conj, Option.some.injEq] at h
    rw [← h, eval_conj, List.forall_mem_cons]

theorem eval_conExpr {X : Ext F} {g : VTuple} {σ : Asg F} {t} (h : Rep g σ t) {c : Con F} {e} (he : conExpr g c = some e) :
    e.eval X t = .ok (.val (.bool true)) ↔ c.Holds X σ := by
  cases c with
  | bin op a b =>
    simp only [conExpr, Option.bind_eq_some_iff, Option.map_eq_some_iff] at he
    obtain ⟨x, h1, y, h2, rfl⟩ := he
    rw [Expr.eval.eq_4, eval_termExpr h h1, Outcome.bind, eval_termExpr h h2, Outcome.bind, asValue, Outcome.bind, asValue, Outcome.bind,
      Con.Holds]
    cases evalBin X .run op.toBin (a.val σ) (b.val σ) <;> simp [Outcome.bind]
  | not a =>
    simp only [conExpr, Option.map_eq_some_iff] at he
    obtain ⟨x, h1, rfl⟩ := he
    rw [Expr.eval.eq_5, eval_termExpr h h1, Outcome.bind, asValue, Outcome.bind, Con.Holds]
    cases evalUn X .run .not (a.val σ) <;> simp [Outcome.bind]

theorem mapM_mem {α β : Type} {f : α → Option β} : ∀ {l : List α} {r : List β}, l.mapM f = some r → ∀ b, b ∈ r ↔ ∃ a ∈ l, f a = some b
  | [], r, h => by simp at h; subst h; simp
  | a :: l, r, h => by
    simp only [List.mapM_cons, Option.bind_eq_bind, Option.bind_eq_some_iff, Option.pure_def, Option.some.injEq] at h
    obtain ⟨b, hb, r', hr, rfl⟩ := h
    intro c
    rw [List.mem_cons, mapM_mem hr c]
    constructor
    · rintro (h | ⟨a', h1, h2⟩)
      · exact ⟨a, by simp, h ▸ hb⟩
      · exact ⟨a', by simp [h1], h2⟩
    · rintro ⟨a', h1, h2⟩
      rw [List.mem_cons] at h1
      rcases h1 with rfl | h1
      · rw [hb] at h2; cases h2; exact Or.inl rfl
      · exact Or.inr ⟨a', h1, h2⟩

theorem mapM_some {α β : Type} {f : α → Option β} : ∀ {l : List α} {r : List β}, l.mapM f = some r → ∀ a ∈ l, ∃ b ∈ r, f a = some b
  | [], r, h, a, ha => by simp at ha
  | a' :: l, r, h, a, ha => by
    simp only [List.mapM_cons, Option.bind_eq_bind, Option.bind_eq_some_iff, Option.pure_def, Option.some.injEq] at h
    obtain ⟨b, hb, r', hr, rfl⟩ := h
    rw [List.mem_cons] at ha
    rcases ha with rfl | ha
    · exact ⟨b, by simp, hb⟩
    · obtain ⟨c, hc, h2⟩ := mapM_some hr a ha
      exact ⟨c, by simp [hc], h2⟩

theorem eval_consExpr {X : Ext F} {g : VTuple} {σ : Asg F} {t} (h : Rep g σ t) {cs : List (Con F)} {e} (he : consExpr g cs = some e) :
    e.eval X t = .ok (.val (.bool true)) ↔ ∀ c ∈ cs, c.Holds X σ := by
  simp only [consExpr, Option.bind_eq_some_iff] at he
  obtain ⟨es, h1, h2⟩ := he
  rw [conj_true h2]
  constructor
  · intro hc c hcm
    obtain ⟨e', he', hce⟩ := mapM_some h1 c hcm
    exact (eval_conExpr h hce).mp (hc e' he')
  · intro hc e' he'
    obtain ⟨c, hcm, hce⟩ := (mapM_mem h1 e').mp he'
    exact (eval_conExpr h hce).mpr (hc c hcm)

/-! ## Locality -/

theorem atom_args_congr {σ τ : Asg F} : ∀ {as : List (Term String F)}, (∀ x ∈ as.filterMap Term.var?, σ x = τ x) →
    as.map (Term.val σ) = as.map (Term.val τ)
  | [], _ => rfl
  | .var x :: as, h => by
    simp only [List.map_cons, Term.val]
    rw [atom_args_congr (as := as) (fun y hy => h y (by rw [List.filterMap_cons]; simp [Term.var?, hy])),
      h x (by rw [List.filterMap_cons]; simp [Term.var?])]
  | .const c :: as, h => by
    simp only [List.map_cons, Term.val]
    rw [atom_args_congr (as := as) (fun y hy => h y (by rw [List.filterMap_cons]; simp [Term.var?, hy]))]

theorem term_congr {σ τ : Asg F} {a : Term String F} (h : ∀ x, a.var? = some x → σ x = τ x) : a.val σ = a.val τ := by
  cases a with
  | const c => rfl
  | var x => exact h x rfl

theorem con_congr {X : Ext F} {σ τ : Asg F} {c : Con F} (h : ∀ x ∈ c.vars, σ x = τ x) : c.Holds X σ ↔ c.Holds X τ := by
  cases c with
  | bin op a b =>
    simp only [Con.Holds]
    rw [term_congr (σ := σ) (τ := τ) (a := a) (fun x hx => h x (List.mem_filterMap.mpr ⟨a, by simp, hx⟩)),
      term_congr (σ := σ) (τ := τ) (a := b) (fun x hx => h x (List.mem_filterMap.mpr ⟨b, by simp, hx⟩))]
  | not a =>
    simp only [Con.Holds]
    rw [term_congr (σ := σ) (τ := τ) (a := a) (fun x hx => h x (List.mem_filterMap.mpr ⟨a, by simp, hx⟩))]

theorem Agree.symm {b : List String} {σ τ : Asg F} (h : Agree b σ τ) : Agree b τ σ := fun x hx => (h x hx).symm
theorem Agree.trans {b : List String} {σ τ υ : Asg F} (h : Agree b σ τ) (h' : Agree b τ υ) : Agree b σ υ := fun x hx => (h x hx).trans (h' x hx)
theorem Agree.sub {b b' : List String} {σ τ : Asg F} (h : Agree b σ τ) (h' : ∀ x ∈ b', x ∈ b) : Agree b' σ τ := fun x hx => h x (h' x hx)

theorem aexpr_congr {X : Ext F} {σ τ : Asg F} {e : AExpr String F} (h : ∀ x ∈ e.vars, σ x = τ x) : e.val X σ = e.val X τ := by
  have tm : ∀ (as : List (Term String F)), (∀ x ∈ as.filterMap Term.var?, σ x = τ x) → ∀ a ∈ as, a.val σ = a.val τ :=
    fun as h a ha => term_congr (fun x hx => h x (List.mem_filterMap.mpr ⟨a, ha, hx⟩))
  cases e with
  | bin op a b => simp only [AExpr.val]; rw [tm _ h a (by simp), tm _ h b (by simp)]
  | un op a => simp only [AExpr.val]; rw [tm _ h a (by simp)]
  | ite c a b => simp only [AExpr.val]; rw [tm _ h c (by simp), tm _ h a (by simp), tm _ h b (by simp)]
  | call f as => simp only [AExpr.val]; rw [atom_args_congr h]
  | new f as => simp only [AExpr.val]; rw [atom_args_congr h]

/-- Whether a plan is satisfied depends on its variables only. -/
theorem Sat.congr {W : World F} {E : Env F} : ∀ {p : Plan F} {need dup σ τ}, Fits W E p need dup → Agree p.bounded σ τ → Sat W p σ → Sat W p τ
  | .unit, _, _, _, _, _, _, _ => trivial
  | .reduce r, _, _, σ, τ, hf, ha, h => by
    simp only [Sat] at h ⊢
    rw [evalV_congr (σ := τ) (τ := σ) (reduceTuple r) (fun x hx => (ha x (hf.2 x hx)).symm)]
    exact h
  | .ground a, _, _, σ, τ, _, ha, h => by
    simp only [Sat] at h ⊢
    rw [← atom_args_congr (σ := σ) (τ := τ) ha]
    exact h
  | .project b d as, _, _, σ, τ, hf, ha, h => by
    obtain ⟨hb, h2, _, _, h5⟩ := hf
    refine ⟨Sat.congr h5 (ha.sub (fun x hx => (hb x).mpr (Or.inl hx))) h.1, ?_⟩
    intro a hm
    rw [← aexpr_congr (σ := σ) (τ := τ) (fun x hx => ha x ((hb x).mpr (Or.inl ((h2 a hm).2 x hx)))),
      ← ha a.1 ((hb a.1).mpr (Or.inr ⟨a, hm, rfl⟩))]
    exact h.2 a hm
  | .filter b d cs, _, _, σ, τ, _, ha, ⟨υ, h1, h2⟩ => ⟨υ, Agree.trans (Agree.symm ha) h1, h2⟩
  | .join d1 d2, _, _, σ, τ, hf, ha, h =>
    ⟨Sat.congr hf.2.1 (ha.sub (fun x hx => List.mem_append.mpr (Or.inl hx))) h.1,
      Sat.congr hf.2.2 (ha.sub (fun x hx => List.mem_append.mpr (Or.inr hx))) h.2⟩
  | .antijoin d1 d2, _, _, σ, τ, hf, ha, h => by
    refine ⟨Sat.congr hf.2.1 ha h.1, ?_⟩
    rintro ⟨υ, h1, h2⟩
    refine h.2 ⟨υ, Agree.trans (ha.sub ?_) h1, h2⟩
    intro x hx
    simp only [joinVars, List.mem_filter, mem_uniq] at hx
    exact hx.1
  | .fpGround a free, _, _, σ, τ, hf, ha, h => by
    simp only [Sat] at h ⊢
    rw [← atom_args_congr (σ := σ) (τ := τ) (fun x hx => by rw [show a.args.filterMap Term.var? = [] from hf.1] at hx; cases hx),
      show free.map τ = free.map σ from List.map_congr_left (fun x hx => (ha x hx).symm)]
    exact h
  | .fpConstraint b d a, _, _, σ, τ, _, ha, ⟨υ, h1, h2⟩ => ⟨υ, Agree.trans (Agree.symm ha) h1, h2⟩
  | .fpJoin d a free, _, _, σ, τ, hf, ha, h => by
    refine ⟨Sat.congr hf.2.2.2.2 (ha.sub (fun x hx => List.mem_append.mpr (Or.inl hx))) h.1, ?_⟩
    rw [← atom_args_congr (σ := σ) (τ := τ) (fun x hx => ha x (List.mem_append.mpr (Or.inl (hf.2.2.1 x hx)))),
      List.map_congr_left (f := τ) (g := σ) (fun x hx => (ha x (List.mem_append.mpr (Or.inr hx))).symm)]
    exact h.2

/-! ## Grounds -/

theorem argPos_append (x : String) : ∀ (as bs : List (Term String F)),
    argPos x (as ++ bs) = match argPos x as with | some i => some i | none => (argPos x bs).map (· + as.length)
  | [], bs => by simp [argPos]
  | .var y :: as, bs => by
    rw [List.cons_append]
    simp only [argPos]
    by_cases e : x = y
    · simp [e]
    · simp only [if_neg e, argPos_append x as bs]
      cases argPos x as with
      | some i => rfl
      | none => simp [Function.comp_def]; congr
  | .const c :: as, bs => by
    rw [List.cons_append]
    simp only [argPos, argPos_append x as bs]
    cases argPos x as with
    | some i => rfl
    | none => simp [Function.comp_def]; congr

theorem argPos_singleton (x y : String) : argPos (F := F) x [.var y] = if x = y then some 0 else none := by
  simp [argPos]

theorem eqVarsFrom_spec {args : List (Term String F)} : ∀ (rest pre : List (Term String F)) (seen : List (String × Nat)),
    args = pre ++ rest → (∀ x, seen.lookup x = argPos x pre) →
    (∀ q ∈ eqVarsFrom seen pre.length rest, ∃ x, args[q.1]? = some (.var x) ∧ args[q.2]? = some (.var x)) ∧
    (∀ i x, pre.length ≤ i → args[i]? = some (.var x) →
      ∃ j, argPos x args = some j ∧ (j = i ∨ (j, i) ∈ eqVarsFrom seen pre.length rest))
  | [], pre, seen, ha, hs => by
    refine ⟨by simp [eqVarsFrom], ?_⟩
    intro i x hi hx
    rw [ha, List.append_nil, List.getElem?_eq_none hi] at hx
    cases hx
  | .const c :: rest, pre, seen, ha, hs => by
    have hl : (pre ++ [Term.const c]).length = pre.length + 1 := by simp
    obtain ⟨h1, h2⟩ := eqVarsFrom_spec (args := args) rest (pre ++ [.const c]) seen (by rw [ha]; simp) (by
      intro x; rw [hs x, argPos_append]; cases argPos x pre <;> simp [argPos])
    rw [hl] at h1 h2
    refine ⟨by simpa [eqVarsFrom] using h1, ?_⟩
    intro i x hi hx
    rcases Nat.eq_or_lt_of_le hi with e | e
    · subst e; rw [ha] at hx; simp at hx
    · simpa [eqVarsFrom] using h2 i x e hx
  | .var y :: rest, pre, seen, ha, hs => by
    have hl : (pre ++ [Term.var (F := F) y]).length = pre.length + 1 := by simp
    have hpos : args[pre.length]? = some (.var y) := by rw [ha]; simp
    cases hy : seen.lookup y with
    | some j =>
      have hj : argPos y pre = some j := by rw [← hs, hy]
      have hja : argPos y args = some j := by rw [ha, argPos_append, hj]
      obtain ⟨h1, h2⟩ := eqVarsFrom_spec (args := args) rest (pre ++ [.var y]) seen (by rw [ha]; simp) (by
        intro x; rw [hs x, argPos_append, argPos_singleton]
        by_cases e : x = y
        · rw [e, hj]
        · cases argPos x pre <;> simp [e])
      rw [hl] at h1 h2
      simp only [eqVarsFrom, hy]
      constructor
      · intro q hq
        rw [List.mem_cons] at hq
        rcases hq with rfl | hq
        · exact ⟨y, argPos_get hja, hpos⟩
        · exact h1 q hq
      · intro i x hi hx
        rcases Nat.eq_or_lt_of_le hi with e | e
        · subst e
          rw [hpos] at hx
          cases hx
          exact ⟨j, hja, Or.inr (by simp)⟩
        · obtain ⟨j', h3, h4⟩ := h2 i x e hx
          refine ⟨j', h3, ?_⟩
          rcases h4 with h4 | h4
          · exact Or.inl h4
          · exact Or.inr (List.mem_cons_of_mem _ h4)
    | none =>
      have hn : argPos y pre = none := by rw [← hs, hy]
      have hja : argPos y args = some pre.length := by rw [ha, argPos_append, hn]; simp [argPos]
      obtain ⟨h1, h2⟩ := eqVarsFrom_spec (args := args) rest (pre ++ [.var y]) ((y, pre.length) :: seen) (by rw [ha]; simp) (by
        intro x; rw [argPos_append, argPos_singleton, List.lookup_cons]
        by_cases e : x = y
        · subst e; simp [hn]
        · have : (x == y) = false := by simpa using e
          rw [this]
          simp only [hs x]
          cases argPos x pre <;> simp [e])
      rw [hl] at h1 h2
      simp only [eqVarsFrom, hy]
      refine ⟨h1, ?_⟩
      intro i x hi hx
      rcases Nat.eq_or_lt_of_le hi with e | e
      · subst e
        rw [hpos] at hx
        cases hx
        exact ⟨pre.length, hja, Or.inl rfl⟩
      · exact h2 i x e hx

/-- The equalities an atom imposes on the columns of its relation. -/
theorem eqVars_iff {args : List (Term String F)} (hv : ∀ t ∈ args, t.const? = none) {vs : List (Val F)} (hl : vs.length = args.length) :
    (∀ q ∈ eqVarsFrom [] 0 args, vs[q.1]? = vs[q.2]?) ↔ ∃ σ : Asg F, args.map (Term.val σ) = vs := by
  obtain ⟨h1, h2⟩ := eqVarsFrom_spec (args := args) args [] [] rfl (by intro x; simp [argPos])
  constructor
  · intro h
    refine ⟨fun x => (argPos x args).elim (.bool true) (fun j => (vs[j]?).elim (.bool true) id), ?_⟩
    apply List.ext_getElem?
    intro i
    rw [List.getElem?_map]
    cases ha : args[i]? with
    | none =>
      rw [Option.map_none, eq_comm, List.getElem?_eq_none_iff, hl]
      exact List.getElem?_eq_none_iff.mp ha
    | some t =>
      cases t with
      | const c => exact absurd (hv _ (List.mem_of_getElem? ha)) (by simp [Term.const?])
      | var x =>
        obtain ⟨j, hj, hji⟩ := h2 i x (Nat.zero_le _) ha
        have hvj : vs[j]? = vs[i]? := by
          rcases hji with rfl | hji
          · rfl
          · exact h _ hji
        have hi : i < vs.length := by
          rw [hl]; exact (List.getElem?_eq_some_iff.mp ha).1
        simp only [Option.map_some, Term.val, hj, Option.elim, hvj, List.getElem?_eq_getElem hi, id]
  · rintro ⟨σ, rfl⟩ q hq
    obtain ⟨x, hx, hy⟩ := h1 q hq
    rw [List.getElem?_map, List.getElem?_map, hx, hy]

theorem eval_eqCols {X : Ext F} (hX : X.ExactFloats) {vs : List (Val F)} {q : Nat × Nat} {e : Expr F} (he : eqCols q = some e)
    (h1 : q.1 < vs.length) (h2 : q.2 < vs.length) :
    e.eval X (flat vs) = .ok (.val (.bool true)) ↔ vs[q.1]? = vs[q.2]? := by
  simp only [eqCols, col, Option.bind_eq_some_iff, Option.map_eq_some_iff] at he
  obtain ⟨a, ha, b, hb, rfl⟩ := he
  rw [mkAccess_eq ha, mkAccess_eq hb, Expr.eval.eq_4, eval_access (flat_at (List.getElem?_eq_getElem h1)), Outcome.bind,
    eval_access (flat_at (List.getElem?_eq_getElem h2)), Outcome.bind, asValue, Outcome.bind, asValue, Outcome.bind,
    List.getElem?_eq_getElem h1, List.getElem?_eq_getElem h2, Option.some.injEq, ← evalBin_eq_iff hX]
  cases evalBin X .run .eq vs[q.1] vs[q.2] <;> simp [Outcome.bind]

/-- The filter of an atom keeps the facts that match it. -/
theorem atomFilter_iff {X : Ext F} (hX : X.ExactFloats) {a : Atom String F} (hv : ∀ t ∈ a.args, t.const? = none) {f : Option (Expr F)}
    (hf : atomFilter a = some f) {vs : List (Val F)} (hl : vs.length = a.args.length) :
    (∀ c, f = some c → c.eval X (flat vs) = .ok (.val (.bool true))) ↔ ∃ σ : Asg F, a.args.map (Term.val σ) = vs := by
  rw [← eqVars_iff hv hl]
  simp only [atomFilter, Option.map_eq_some_iff] at hf
  obtain ⟨es, he, rfl⟩ := hf
  obtain ⟨h1, _⟩ := eqVarsFrom_spec (args := a.args) a.args [] [] rfl (by intro x; simp [argPos])
  have hb : ∀ q ∈ eqVarsFrom [] 0 a.args, q.1 < vs.length ∧ q.2 < vs.length := by
    intro q hq
    obtain ⟨x, hx, hy⟩ := h1 q hq
    rw [hl]
    exact ⟨(List.getElem?_eq_some_iff.mp hx).1, (List.getElem?_eq_some_iff.mp hy).1⟩
  have hall : (∀ c, conj es = some c → c.eval X (flat vs) = .ok (.val (.bool true))) ↔ ∀ c ∈ es, c.eval X (flat vs) = .ok (.val (.bool true)) := by
    cases hc : conj es with
    | none =>
      cases es with
      | nil => simp
      | cons c es => simp [conj] at hc
    | some c => simp only [Option.some.injEq, forall_eq']; exact conj_true hc
  rw [hall]
  constructor
  · intro h q hq
    obtain ⟨e, hem, hqe⟩ := mapM_some he q hq
    exact (eval_eqCols hX hqe (hb q hq).1 (hb q hq).2).mp (h e hem)
  · intro h e hem
    obtain ⟨q, hq, hqe⟩ := (mapM_mem he e).mp hem
    exact (eval_eqCols hX hqe (hb q hq).1 (hb q hq).2).mpr (h q hq)

theorem matchesArgs_eq {g : VTuple} {args : List (Term String F)} (h : matchesArgs g args = true) :
    ∃ vs : List String, g = .tup (vs.map .val) ∧ args = vs.map .var := by
  cases g with
  | val x => simp [matchesArgs] at h
  | tup ts =>
    simp only [matchesArgs, Bool.and_eq_true, decide_eq_true_eq] at h
    obtain ⟨hl, h⟩ := h
    suffices ∃ vs : List String, ts = vs.map .val ∧ args = vs.map .var by
      obtain ⟨vs, h1, h2⟩ := this
      exact ⟨vs, by rw [h1], h2⟩
    induction ts generalizing args with
    | nil =>
      cases args with
      | nil => exact ⟨[], rfl, rfl⟩
      | cons a as => simp at hl
    | cons t ts ih =>
      cases args with
      | nil => simp at hl
      | cons a as =>
        simp only [List.zip_cons_cons, List.all_cons, Bool.and_eq_true] at h
        obtain ⟨vs, h1, h2⟩ := ih (by simpa using hl) h.2
        cases a with
        | const c => simp at h
        | var x =>
          cases t with
          | tup us => simp at h
          | val y =>
            have e : x = y := by simpa using h.1
            exact ⟨y :: vs, by rw [h1]; rfl, by rw [h2, e]; rfl⟩

theorem filterMap_vars (vs : List String) : (vs.map (Term.var (F := F))).filterMap Term.var? = vs := by
  induction vs with
  | nil => rfl
  | cons v vs ih => rw [List.map_cons, List.filterMap_cons]; simp [Term.var?, ih]

theorem exists_asg {vs : List String} (hn : vs.Nodup) {ws : List (Val F)} (hl : ws.length = vs.length) : ∃ σ : Asg F, vs.map σ = ws := by
  induction vs generalizing ws with
  | nil => exact ⟨fun _ => .bool true, by cases ws with | nil => rfl | cons => simp at hl⟩
  | cons v vs ih =>
    cases ws with
    | nil => simp at hl
    | cons w ws =>
      rw [List.nodup_cons] at hn
      obtain ⟨σ, hσ⟩ := ih hn.2 (ws := ws) (by simpa using hl)
      refine ⟨fun x => if x = v then w else σ x, ?_⟩
      rw [List.map_cons, if_pos rfl, ← hσ]
      congr 1
      apply List.map_congr_left
      intro x hx
      rw [if_neg (fun e : x = v => hn.1 (e ▸ hx))]

theorem map_val_vars (σ : Asg F) (vs : List String) : (vs.map Term.var).map (Term.val σ) = vs.map σ := by
  rw [List.map_map]; rfl

/-- The facts of the predicate of an atom, filtered if there is a filter. -/
def filtered (f : Option (Expr F)) (a : Atom String F) : Dataflow F :=
  match f with
  | some c => .un (.filter c) (.leaf (.rel a.predicate))
  | none => .leaf (.rel a.predicate)

/-- The filtered and permuted facts of an atom without constants. -/
theorem groundFilter_corr {W : World F} (hX : W.X.ExactFloats) {a : Atom String F} {goal : VTuple} {π v' e f}
    (hv : ∀ t ∈ a.args, t.const? = none) (hflat : FlatRel W a) (hp : permutation a.args [] goal = some (π, v')) (he : permExpr π = some e)
    (hf : atomFilter a = some f) :
    Corr W (.project (filtered f a) e)
      (Sat W (.ground a)) goal := by
  have key : ∀ t, Den W (filtered f a) t ↔
      ∃ σ : Asg F, t = flat (a.args.map (Term.val σ)) ∧ W.I a.predicate t := by
    intro t
    have h1 : Den W (filtered f a) t ↔
        W.I a.predicate t ∧ ∀ c, f = some c → c.eval W.X t = .ok (.val (.bool true)) := by
      cases f with
      | none => simp [filtered, Den]
      | some c => simp [filtered, Den]
    rw [h1]
    constructor
    · rintro ⟨hi, hc⟩
      obtain ⟨vs, hl, rfl⟩ := hflat t hi
      obtain ⟨σ, hσ⟩ := (atomFilter_iff hX hv hf hl).mp hc
      exact ⟨σ, by rw [hσ], hi⟩
    · rintro ⟨σ, rfl, hi⟩
      exact ⟨hi, (atomFilter_iff hX hv hf (vs := a.args.map (Term.val σ)) (by simp)).mpr ⟨σ, rfl⟩⟩
  constructor
  · rintro t ⟨u, hu, hev⟩
    obtain ⟨σ, rfl, hi⟩ := (key u).mp hu
    obtain ⟨t', ht', hr⟩ := permutation_rep (X := W.X) σ hp he
    rw [ht'] at hev
    cases hev
    exact ⟨σ, hi, hr⟩
  · intro σ hσ
    obtain ⟨t', ht', hr⟩ := permutation_rep (X := W.X) σ hp he
    exact ⟨t', ⟨_, (key _).mpr ⟨σ, rfl, hσ⟩, ht'⟩, hr⟩

theorem groundNoConst_corr {W : World F} (hX : W.X.ExactFloats) {a : Atom String F} {goal : VTuple} {p : DProp} {s : St F} {d s'}
    (hv : ∀ t ∈ a.args, t.const? = none) (hflat : FlatRel W a) (hm : matchesArgs goal a.args = true → (atomVars a).Nodup)
    (h : groundNoConst goal a p s = some (d, s')) : St.Le s s' ∧ (Solves W s' → Corr W d (Sat W (.ground a)) goal) := by
  unfold groundNoConst at h
  by_cases hma : matchesArgs goal a.args = true
  · rw [if_pos hma] at h
    cases h
    refine ⟨St.Le.refl s, fun _ => ?_⟩
    obtain ⟨vs, rfl, hargs⟩ := matchesArgs_eq hma
    have hn : vs.Nodup := by
      have := hm hma
      rwa [atomVars, hargs, filterMap_vars] at this
    constructor
    · intro t ht
      obtain ⟨ws, hl, rfl⟩ := hflat t ht
      obtain ⟨σ, hσ⟩ := exists_asg hn (ws := ws) (by rw [hl, hargs]; simp)
      refine ⟨σ, ?_, ?_⟩
      · simp only [Sat]; rw [hargs, map_val_vars, hσ]; exact ht
      · rw [← hσ, ← evalV_vals]; exact Rep.evalV σ _
    · intro σ hσ
      simp only [Sat] at hσ
      rw [hargs, map_val_vars] at hσ
      exact ⟨_, hσ, by rw [← evalV_vals]; exact Rep.evalV σ _⟩
  · rw [if_neg hma] at h
    simp only [Option.bind_eq_some_iff] at h
    obtain ⟨⟨π, v'⟩, hp, e, he, f, hf, h⟩ := h
    have hc := groundFilter_corr hX hv hflat hp he hf
    cases f with
    | some c =>
      simp only [filtered] at h hc
      split at h
      · simp only [Option.some.injEq] at h
        have hle : St.Le s { s with perms := s.perms ++ [(a.predicate, π)] } :=
          ⟨fun _ h => h, fun _ h => h, fun q h => by simp [h]⟩
        split at h
        · have h1 := congrArg Prod.fst h
          have h2 := congrArg Prod.snd h
          simp only at h1 h2
          subst h1 h2
          exact ⟨hle.trans (createNeg_le _ _), fun hs => hc.congr (createNeg_den hs)⟩
        · have h1 := congrArg Prod.fst h
          have h2 := congrArg Prod.snd h
          simp only at h1 h2
          subst h1 h2
          exact ⟨hle.trans (createTemp_le _ _), fun hs => hc.congr (createTemp_den hs)⟩
      · cases h
        exact ⟨St.Le.refl s, fun _ => hc⟩
    | none =>
      simp only [filtered] at h hc
      split at h
      · cases h
        refine ⟨⟨fun _ h => h, fun _ h => h, fun q h => by simp [h]⟩, fun hs => hc.congr ?_⟩
        intro t
        simp only [Den]
        rw [hs.perms a.predicate π (by simp) t]
        constructor
        · rintro ⟨u, e', h1, h2, h3⟩
          rw [he] at h2
          cases h2
          exact ⟨u, h1, h3⟩
        · rintro ⟨u, h1, h3⟩
          exact ⟨u, e, h1, he, h3⟩
      · cases h
        exact ⟨St.Le.refl s, fun _ => hc⟩

theorem Corr.weaken {W : World F} {d : Dataflow F} {S S' : Asg F → Prop} {g} (h : Corr W d S g) (h1 : ∀ σ, S σ → S' σ)
    (h2 : ∀ σ, S' σ → ∃ τ, S τ ∧ ∀ x ∈ leaves g, τ x = σ x) : Corr W d S' g := by
  constructor
  · intro t ht
    obtain ⟨σ, hσ, hr⟩ := h.sound t ht
    exact ⟨σ, h1 σ hσ, hr⟩
  · intro σ hσ
    obtain ⟨τ, hτ, he⟩ := h2 σ hσ
    obtain ⟨t, ht, hr⟩ := h.complete τ hτ
    exact ⟨t, ht, hr.congr he⟩

/-! ## Constants -/

theorem toString_inj {i j : Nat} (h : toString i = toString j) : i = j := by
  rw [Nat.toString_eq_repr, Nat.toString_eq_repr] at h
  have h' := congrArg String.toList h
  rw [Nat.toList_repr, Nat.toList_repr] at h'
  rw [← Nat.ofDigitChars_ten_toDigits (n := i), h', Nat.ofDigitChars_ten_toDigits]

theorem append_inj_left {a b c : String} (h : a ++ b = a ++ c) : b = c := by
  have h' := congrArg String.toList h
  rw [String.toList_append, String.toList_append] at h'
  exact String.toList_inj.mp (List.append_cancel_left h')

theorem constVar_inj {i j : Nat} (h : constVar i = constVar j) : i = j := toString_inj (append_inj_left h)

theorem constsFrom_ge : ∀ {k : Nat} {as : List (Term String F)} {q}, q ∈ constsFrom k as → k ≤ q.1
  | _, [], q, h => by simp [constsFrom] at h
  | k, .const c :: as, q, h => by
    simp only [constsFrom, List.mem_cons] at h
    rcases h with rfl | h
    · exact Nat.le_refl _
    · exact Nat.le_of_succ_le (constsFrom_ge h)
  | k, .var x :: as, q, h => by
    simp only [constsFrom] at h
    exact Nat.le_of_succ_le (constsFrom_ge h)

theorem constsFrom_nodup : ∀ {k : Nat} {as : List (Term String F)}, ((constsFrom k as).map Prod.fst).Nodup
  | _, [] => by simp [constsFrom]
  | k, .const c :: as => by
    simp only [constsFrom, List.map_cons, List.nodup_cons]
    refine ⟨?_, constsFrom_nodup⟩
    intro h
    obtain ⟨q, hq, e⟩ := List.mem_map.mp h
    have := constsFrom_ge hq
    omega
  | k, .var x :: as => by simp only [constsFrom]; exact constsFrom_nodup

theorem constArgs_val {τ : Asg F} : ∀ {k : Nat} {as : List (Term String F)}, (∀ q ∈ constsFrom k as, τ (constVar q.1) = q.2) →
    (constArgsFrom k as).map τ = as.map (Term.val τ)
  | _, [], _ => rfl
  | k, .const c :: as, h => by
    simp only [constArgsFrom, List.map_cons, Term.val]
    rw [constArgs_val (fun q hq => h q (by simp [constsFrom, hq])), h (k, c) (by simp [constsFrom])]
  | k, .var x :: as, h => by
    simp only [constArgsFrom, List.map_cons, Term.val]
    rw [constArgs_val (fun q hq => h q (by simp [constsFrom, hq]))]

theorem constArgs_length : ∀ {k : Nat} {as : List (Term String F)}, (constArgsFrom k as).length = as.length
  | _, [] => rfl
  | k, .const c :: as => by simp [constArgsFrom, constArgs_length]
  | k, .var x :: as => by simp [constArgsFrom, constArgs_length]

theorem constArgs_get : ∀ {k : Nat} {as : List (Term String F)} {q}, q ∈ constsFrom k as → (constArgsFrom k as)[q.1 - k]? = some (constVar q.1)
  | _, [], q, h => by simp [constsFrom] at h
  | k, .const c :: as, q, h => by
    simp only [constsFrom, List.mem_cons] at h
    rcases h with rfl | h
    · simp [constArgsFrom]
    · have h1 := constArgs_get h
      have h2 := constsFrom_ge h
      rw [constArgsFrom, show q.1 - k = (q.1 - (k + 1)) + 1 by omega, List.getElem?_cons_succ]
      exact h1
  | k, .var x :: as, q, h => by
    simp only [constsFrom] at h
    have h1 := constArgs_get h
    have h2 := constsFrom_ge h
    rw [constArgsFrom, show q.1 - k = (q.1 - (k + 1)) + 1 by omega, List.getElem?_cons_succ]
    exact h1

theorem mem_constArgs : ∀ {k : Nat} {as : List (Term String F)} {x}, x ∈ constArgsFrom k as →
    x ∈ as.filterMap Term.var? ∨ ∃ q ∈ constsFrom k as, x = constVar q.1
  | _, [], x, h => by simp [constArgsFrom] at h
  | k, .const c :: as, x, h => by
    simp only [constArgsFrom, List.mem_cons] at h
    rcases h with rfl | h
    · exact Or.inr ⟨(k, c), by simp [constsFrom], rfl⟩
    · rcases mem_constArgs h with h | ⟨q, hq, e⟩
      · exact Or.inl (by rw [List.filterMap_cons]; simpa [Term.var?] using h)
      · exact Or.inr ⟨q, by simp [constsFrom, hq], e⟩
  | k, .var y :: as, x, h => by
    simp only [constArgsFrom, List.mem_cons] at h
    rcases h with rfl | h
    · exact Or.inl (by rw [List.filterMap_cons]; simp [Term.var?])
    · rcases mem_constArgs h with h | ⟨q, hq, e⟩
      · exact Or.inl (by rw [List.filterMap_cons]; simp [Term.var?, h])
      · exact Or.inr ⟨q, by simpa [constsFrom] using hq, e⟩

theorem constArgs_nodup : ∀ {k : Nat} {as : List (Term String F)}, (as.filterMap Term.var?).Nodup → NoConstNames (as.filterMap Term.var?) →
    (constArgsFrom k as).Nodup
  | _, [], _, _ => by simp [constArgsFrom]
  | k, .const c :: as, hn, hc => by
    rw [List.filterMap_cons] at hn hc
    simp only [Term.var?] at hn hc
    rw [constArgsFrom, List.nodup_cons]
    refine ⟨?_, constArgs_nodup hn hc⟩
    intro h
    rcases mem_constArgs h with h | ⟨q, hq, e⟩
    · exact hc k h
    · have := constVar_inj e
      have := constsFrom_ge hq
      omega
  | k, .var y :: as, hn, hc => by
    rw [List.filterMap_cons] at hn hc
    simp only [Term.var?, List.nodup_cons] at hn hc
    rw [constArgsFrom, List.nodup_cons]
    refine ⟨?_, constArgs_nodup hn.2 (fun i hi => hc i (List.mem_cons_of_mem _ hi))⟩
    intro h
    rcases mem_constArgs h with h | ⟨q, hq, e⟩
    · exact hn.1 h
    · exact hc q.1 (by rw [e]; simp)

/-- The assignment with the names of constants set to the constants. -/
def withConsts (qs : List (Nat × Val F)) (σ : Asg F) : Asg F := fun x => match qs.find? (fun q => decide (constVar q.1 = x)) with | some q => q.2 | none => σ x

theorem withConsts_const {qs : List (Nat × Val F)} (hn : (qs.map Prod.fst).Nodup) (σ : Asg F) {q} (hq : q ∈ qs) :
    withConsts qs σ (constVar q.1) = q.2 := by
  unfold withConsts
  cases h : qs.find? (fun q' => decide (constVar q'.1 = constVar q.1)) with
  | none =>
    rw [List.find?_eq_none] at h
    exact absurd (by simp) (h q hq)
  | some q' =>
    have h1 := List.find?_some h
    simp only [decide_eq_true_eq] at h1
    have h2 := List.mem_of_find?_eq_some h
    have : q' = q := List.inj_on_of_nodup_map hn h2 hq (constVar_inj h1)
    rw [this]

theorem withConsts_var {qs : List (Nat × Val F)} {σ : Asg F} {x : String} (h : ∀ i, x ≠ constVar i) : withConsts qs σ x = σ x := by
  unfold withConsts
  have : qs.find? (fun q' => decide (constVar q'.1 = x)) = none := by
    rw [List.find?_eq_none]
    intro q _
    simpa using fun e => h q.1 e.symm
  rw [this]

theorem subAtom_args (a : Atom String F) (τ : Asg F) : (subAtom a).args.map (Term.val τ) = (constArgsFrom 0 a.args).map τ := by
  rw [subAtom, map_val_vars]

theorem subAtom_flat {W : World F} {a : Atom String F} (h : FlatRel W a) : FlatRel W (subAtom a) := by
  intro t ht
  obtain ⟨vs, hl, e⟩ := h t ht
  exact ⟨vs, by rw [hl, subAtom, List.length_map, constArgs_length], e⟩

theorem subAtom_vars (a : Atom String F) : ∀ t ∈ (subAtom a).args, t.const? = none := by
  intro t ht
  simp only [subAtom, List.mem_map] at ht
  obtain ⟨x, _, rfl⟩ := ht
  rfl

theorem subAtom_atomVars (a : Atom String F) : atomVars (subAtom a) = constArgsFrom 0 a.args := by
  rw [atomVars, subAtom, filterMap_vars]

/-- The assignments of an atom with constants are those of the atom without in which the names of constants have the right values. -/
theorem subAtom_weaken {W : World F} {a : Atom String F} {d : Dataflow F} {g : VTuple} (hc : NoConstNames (atomVars a))
    (hg : ∀ x ∈ leaves g, x ∈ atomVars a)
    (h : Corr W d (fun σ => Sat W (.ground (subAtom a)) σ ∧ ∀ q ∈ constsFrom 0 a.args, σ (constVar q.1) = q.2) g) :
    Corr W d (Sat W (.ground a)) g := by
  refine h.weaken ?_ ?_
  · rintro σ ⟨h1, h2⟩
    simp only [Sat] at h1 ⊢
    rw [subAtom_args, constArgs_val h2] at h1
    exact h1
  · intro σ hσ
    have hv : ∀ x ∈ atomVars a, withConsts (constsFrom 0 a.args) σ x = σ x :=
      fun x hx => withConsts_var (fun i e => hc i (e ▸ hx))
    have hq : ∀ q ∈ constsFrom 0 a.args, withConsts (constsFrom 0 a.args) σ (constVar q.1) = q.2 :=
      fun q hq => withConsts_const constsFrom_nodup σ hq
    refine ⟨withConsts (constsFrom 0 a.args) σ, ⟨?_, hq⟩, fun x hx => hv x (hg x hx)⟩
    simp only [Sat] at hσ ⊢
    rw [subAtom_args, constArgs_val hq, atom_args_congr (τ := σ) hv]
    exact hσ

theorem leaves_single (vs : List String) : leaves (single vs) = vs := by
  unfold single
  split
  · rfl
  · exact leaves_vals _

theorem evalV_single (σ : Asg F) (vs : List String) : evalV σ (single vs) = single (vs.map σ) := by
  cases vs with
  | nil => rfl
  | cons v vs =>
    cases vs with
    | nil => rfl
    | cons w vs => simp only [single, List.map_cons]; rw [show (Tup.val v :: Tup.val w :: vs.map Tup.val) = (v :: w :: vs).map Tup.val from rfl, evalV_vals]; rfl

theorem groundDynamic_corr {W : World F} (hX : W.X.ExactFloats) {a : Atom String F} {goal : VTuple} {p : DProp} {s : St F} {d s'}
    (hflat : FlatRel W a) (hc : NoConstNames (atomVars a)) (hg : ∀ x ∈ leaves goal, x ∈ atomVars a)
    (h : groundDynamic goal a p s = some (d, s')) : St.Le s s' ∧ (Solves W s' → Corr W d (Sat W (.ground a)) goal) := by
  simp only [groundDynamic, Option.bind_eq_some_iff, Option.map_eq_some_iff] at h
  obtain ⟨⟨d1, s1⟩, h1, e, he, h⟩ := h
  have hnames : ((constsFrom 0 a.args).map (fun q => constVar q.1)).Nodup := by
    have := (constsFrom_nodup (k := 0) (as := a.args)).map (f := constVar) (fun i j h => constVar_inj h)
    rwa [List.map_map] at this
  obtain ⟨hle, hcorr⟩ := groundNoConst_corr hX (subAtom_vars a) (subAtom_flat hflat) (by
    intro hm
    obtain ⟨vs, h2, h3⟩ := matchesArgs_eq hm
    simp only [Tup.tup.injEq] at h2
    cases vs with
    | nil => simp at h2
    | cons n vs =>
    cases vs with
    | nil => simp at h2
    | cons x vs =>
    cases vs with
    | cons _ _ => simp at h2
    | nil =>
      simp only [List.map_cons, List.map_nil, List.cons.injEq, and_true] at h2
      have e1 : (constsFrom 0 a.args).map (fun q => constVar q.1) = [n] := by
        have := congrArg leaves h2.1; rwa [leaves_single] at this
      have e2 : atomVars a = [x] := by
        have := congrArg leaves h2.2; rwa [leaves_single] at this
      rw [atomVars, h3, filterMap_vars]
      simp only [List.nodup_cons, List.mem_singleton, List.not_mem_nil, not_false_iff, List.nodup_nil, and_true]
      intro e
      have : n ∈ (constsFrom 0 a.args).map (fun q => constVar q.1) := by rw [e1]; simp
      obtain ⟨q, _, hq⟩ := List.mem_map.mp this
      exact hc q.1 (by rw [hq, e2, e]; simp)) h1
  have h2 := congrArg Prod.snd h
  have h3 := congrArg Prod.fst h
  simp only at h2 h3
  subst h2 h3
  refine ⟨hle.trans (process_le _ _ _), fun hs => ?_⟩
  refine Corr.process ?_ hs
  refine subAtom_weaken hc hg (Corr.project ?_ he)
  have hq : ∀ σ : Asg F, ∀ q ∈ constsFrom 0 a.args, withConsts (constsFrom 0 a.args) σ (constVar q.1) = q.2 :=
    fun σ q hq => withConsts_const constsFrom_nodup σ hq
  have hk : ∀ σ : Asg F, (∀ q ∈ constsFrom 0 a.args, σ (constVar q.1) = q.2) →
      single ((constsFrom 0 a.args).map Prod.snd) = evalV σ (single ((constsFrom 0 a.args).map (fun q => constVar q.1))) := by
    intro σ hσ
    rw [evalV_single, List.map_map]
    congr 1
    apply List.map_congr_left
    intro q hqm
    exact (hσ q hqm).symm
  have hb := hcorr (hs.mono (process_le _ _ _))
  constructor
  · rintro t ⟨ht, hat⟩
    obtain ⟨σ, hσ, hr⟩ := hb.sound t ht
    refine ⟨σ, ⟨hσ, ?_⟩, hr⟩
    intro q hqm
    have hmem : constVar q.1 ∈ leaves (single ((constsFrom 0 a.args).map (fun q => constVar q.1))) := by
      rw [leaves_single]; exact List.mem_map.mpr ⟨q, hqm, rfl⟩
    obtain ⟨b, hb1⟩ := Option.isSome_iff_exists.mp ((accessorOf_isSome _ _).mpr hmem)
    have h4 := hr.acc (constVar q.1) (0 :: b) (by rw [accessorOf, accessorOfList, hb1])
    rw [Tup.atPath, hat, Option.bind_some, hk (withConsts (constsFrom 0 a.args) σ) (hq σ),
      (Rep.evalV (withConsts (constsFrom 0 a.args) σ) _).acc _ b hb1, hq σ q hqm] at h4
    simpa using h4.symm
  · rintro σ ⟨hσ, hσc⟩
    obtain ⟨t, ht, hr⟩ := hb.complete σ hσ
    refine ⟨t, ⟨ht, ?_⟩, hr⟩
    rw [hk σ hσc]
    exact hr.fst _ _ rfl (by rw [leaves_single]; exact hnames)

theorem groundStatic_corr {W : World F} (hX : W.X.ExactFloats) {a : Atom String F} {goal : VTuple} {p : DProp} {s : St F} {d s'}
    (hflat : FlatRel W a) (hc : NoConstNames (atomVars a)) (hg : ∀ x ∈ leaves goal, x ∈ atomVars a) (hn : (atomVars a).Nodup)
    (hlen : a.args.length ≠ 1)
    (h : groundStatic goal a p s = some (d, s')) : St.Le s s' ∧ (Solves W s' → Corr W d (Sat W (.ground a)) goal) := by
  simp only [groundStatic, Option.bind_eq_some_iff, Option.map_eq_some_iff] at h
  obtain ⟨⟨d1, s1⟩, h1, es, hes, f, hf, e, he, h⟩ := h
  have hcn : (constArgsFrom 0 a.args).Nodup := constArgs_nodup hn hc
  obtain ⟨hle, hcorr⟩ := groundNoConst_corr hX (subAtom_vars a) (subAtom_flat hflat) (fun _ => by rw [subAtom_atomVars]; exact hcn) h1
  have h2 := congrArg Prod.snd h
  have h3 := congrArg Prod.fst h
  simp only at h2 h3
  subst h2 h3
  refine ⟨hle.trans (process_le _ _ _), fun hs => ?_⟩
  refine Corr.process ?_ hs
  refine subAtom_weaken hc hg (Corr.project ?_ he)
  have hb := hcorr (hs.mono (process_le _ _ _))
  have hshape : fromVars (constArgsFrom 0 a.args) true = .tup ((constArgsFrom 0 a.args).map .val) := by
    rcases fromVars_cases (constArgsFrom 0 a.args) true with ⟨x, h4, _⟩ | h4
    · rw [uniq_of_nodup hcn] at h4
      have := constArgs_length (k := 0) (as := a.args)
      rw [h4] at this
      exact absurd this.symm hlen
    · rw [h4, uniq_of_nodup hcn]
  have hfil : ∀ σ t, Rep (fromVars (constArgsFrom 0 a.args) true) σ t →
      (f.eval W.X t = .ok (.val (.bool true)) ↔ ∀ q ∈ constsFrom 0 a.args, σ (constVar q.1) = q.2) := by
    intro σ t hr
    have ht : t = flat ((constArgsFrom 0 a.args).map σ) := by
      rw [hr.exact (nodup_fromVars _ _), hshape, evalV_vals]
    rw [conj_true hf]
    have one : ∀ q ∈ constsFrom 0 a.args, ∀ e', (col q.1).map (fun e => (Expr.bin .eq e (.const q.2) : Expr F)) = some e' →
        (e'.eval W.X t = .ok (.val (.bool true)) ↔ σ (constVar q.1) = q.2) := by
      intro q hq e' he'
      simp only [col, Option.map_eq_some_iff] at he'
      obtain ⟨x, hx, rfl⟩ := he'
      have hget : ((constArgsFrom 0 a.args).map σ)[q.1]? = some (σ (constVar q.1)) := by
        rw [List.getElem?_map, show (constArgsFrom 0 a.args)[q.1]? = some (constVar q.1) from by simpa using constArgs_get hq]; rfl
      rw [mkAccess_eq hx, ht, Expr.eval.eq_4, eval_access (flat_at hget), Outcome.bind, Expr.eval.eq_3, Outcome.bind, asValue, Outcome.bind,
        asValue, Outcome.bind, ← evalBin_eq_iff hX]
      cases evalBin W.X .run .eq (σ (constVar q.1)) q.2 <;> simp [Outcome.bind]
    constructor
    · intro hall q hq
      obtain ⟨e', hem, hqe⟩ := mapM_some hes q hq
      exact (one q hq e' hqe).mp (hall e' hem)
    · intro hall e' hem
      obtain ⟨q, hq, hqe⟩ := (mapM_mem hes e').mp hem
      exact (one q hq e' hqe).mpr (hall q hq)
  constructor
  · rintro t ⟨ht, hev⟩
    obtain ⟨σ, hσ, hr⟩ := hb.sound t ht
    exact ⟨σ, ⟨hσ, (hfil σ t hr).mp hev⟩, hr⟩
  · rintro σ ⟨hσ, hσc⟩
    obtain ⟨t, ht, hr⟩ := hb.complete σ hσ
    exact ⟨t, ⟨ht, (hfil σ t hr).mpr hσc⟩, hr⟩

theorem groundFlow_corr {W : World F} {E : Env F} (hX : W.X.ExactFloats) {a : Atom String F} {goal : VTuple} {p : DProp} {s : St F} {d s' need dup}
    (hfit : Fits W E (.ground a) need dup) (hdup : dup = false → (leaves goal).Nodup) (hg : ∀ x ∈ leaves goal, x ∈ atomVars a)
    (h : groundFlow E goal a p s = some (d, s')) : St.Le s s' ∧ (Solves W s' → Corr W d (Sat W (.ground a)) goal) := by
  obtain ⟨hflat, hc, hd, hst⟩ := hfit
  unfold groundFlow at h
  by_cases h0 : a.args.isEmpty = true
  · rw [if_pos h0] at h
    have h0' : a.args = [] := by simpa using h0
    have base : Corr W (.leaf (.rel a.predicate)) (Sat W (.ground a)) (.tup []) := by
      constructor
      · intro t ht
        obtain ⟨vs, hl, rfl⟩ := hflat t ht
        rw [h0'] at hl
        have : vs = [] := by simpa using hl
        subst this
        exact ⟨fun _ => .bool true, by simp only [Sat]; rw [h0']; exact ht, Rep.evalV (fun _ => .bool true) (.tup [])⟩
      · intro σ hσ
        simp only [Sat] at hσ
        rw [h0'] at hσ
        exact ⟨_, hσ, Rep.evalV σ (.tup [])⟩
    split at h
    · rename_i hm
      cases h
      refine ⟨St.Le.refl s, fun _ => ?_⟩
      obtain ⟨vs, rfl, h2⟩ := matchesArgs_eq hm
      rw [h0'] at h2
      have : vs = [] := by simpa using h2.symm
      subst this
      exact base
    · simp only [Option.map_eq_some_iff] at h
      obtain ⟨e, he, h⟩ := h
      cases h
      exact ⟨St.Le.refl s, fun _ => base.project he⟩
  · rw [if_neg h0] at h
    by_cases h1 : a.args.any (fun t => t.const?.isSome) = true
    · rw [if_pos h1] at h
      simp only [Option.bind_eq_some_iff] at h
      obtain ⟨st, hst', h⟩ := h
      split at h
      · rename_i h2
        simp only [Bool.and_eq_true, Bool.not_eq_true'] at h2
        refine groundStatic_corr hX hflat hc hg (hst (by rw [hst', h2.1])) ?_ h
        intro hl
        match ha : a.args, hl with
        | [.const c], _ => rw [ha] at h2; simp [constsUpfront] at h2
        | [.var x], _ => rw [ha] at h1; simp [Term.const?] at h1
      · exact groundDynamic_corr hX hflat hc hg h
    · rw [if_neg h1] at h
      have hv : ∀ t ∈ a.args, t.const? = none := by
        intro t ht
        simp only [List.any_eq_true, not_exists, not_and, Bool.not_eq_true] at h1
        simpa using h1 t ht
      refine groundNoConst_corr hX hv hflat ?_ h
      intro hm
      cases dup with
      | true => exact hd rfl hv
      | false =>
        obtain ⟨vs, rfl, h2⟩ := matchesArgs_eq hm
        have := hdup rfl
        rw [leaves_vals] at this
        rw [atomVars, h2, filterMap_vars]
        exact this

/-! ## Inner nodes -/

theorem Corr.weaken' {W : World F} {d : Dataflow F} {S S' : Asg F → Prop} {g} (h : Corr W d S g)
    (h1 : ∀ σ, S σ → ∃ τ, S' τ ∧ ∀ x ∈ leaves g, σ x = τ x)
    (h2 : ∀ σ, S' σ → ∃ τ, S τ ∧ ∀ x ∈ leaves g, τ x = σ x) : Corr W d S' g := by
  constructor
  · intro t ht
    obtain ⟨σ, hσ, hr⟩ := h.sound t ht
    obtain ⟨τ, hτ, he⟩ := h1 σ hσ
    exact ⟨τ, hτ, hr.congr he⟩
  · intro σ hσ
    obtain ⟨τ, hτ, he⟩ := h2 σ hσ
    obtain ⟨t, ht, hr⟩ := h.complete τ hτ
    exact ⟨t, ht, hr.congr he⟩

/-- The translation of a plan is right for the goals that `Fits` admits. -/
def Good (W : World F) (E : Env F) (d : Plan F) (need : String → Prop) (dup : Bool) : Prop :=
  ∀ goal p s r s', (dup = false → (leaves goal).Nodup) → (∀ x ∈ leaves goal, x ∈ d.bounded) →
    (∀ x ∈ d.bounded, need x → x ∈ leaves goal) → toRam E d goal p s = some (r, s') →
    St.Le s s' ∧ (Solves W s' → Corr W r (Sat W d) goal)

theorem mem_expand {g : VTuple} {vs : List String} {x : String} : x ∈ leaves (expand g vs) ↔ x ∈ leaves g ∨ x ∈ vs := by
  have : leaves (expand g vs) = leaves g ++ vs.filter (fun v => (accessorOf v g).isNone) := by
    cases g with
    | val y => simp only [expand, leaves, leavesList]; rw [leavesList_vals]
    | tup gs => simp only [expand, leaves]; rw [leavesList_append, leavesList_vals]
  rw [this, List.mem_append, List.mem_filter, Option.isNone_iff_eq_none, accessorOf_none]
  constructor
  · rintro (h | h)
    · exact Or.inl h
    · exact Or.inr h.1
  · rintro (h | h)
    · exact Or.inl h
    · by_cases hx : x ∈ leaves g
      · exact Or.inl hx
      · exact Or.inr ⟨h, hx⟩

theorem nodup_expand {g : VTuple} {vs : List String} (h : (leaves g).Nodup) (h' : vs.Nodup) : (leaves (expand g vs)).Nodup := by
  have : leaves (expand g vs) = leaves g ++ vs.filter (fun v => (accessorOf v g).isNone) := by
    cases g with
    | val y => simp only [expand, leaves, leavesList]; rw [leavesList_vals]
    | tup gs => simp only [expand, leaves]; rw [leavesList_append, leavesList_vals]
  rw [this, List.nodup_append]
  refine ⟨h, h'.filter _, ?_⟩
  rintro a ha b hb rfl
  rw [List.mem_filter, Option.isNone_iff_eq_none, accessorOf_none] at hb
  exact hb.2 ha

theorem flatMap_perm {cs : List (Con F)} {f g : Con F → List String} (h : ∀ c, (f c).Perm (g c)) : (cs.flatMap f).Perm (cs.flatMap g) := by
  induction cs with
  | nil => exact List.Perm.refl _
  | cons c cs ih => simp only [List.flatMap_cons]; exact (h c).append ih

theorem filter_good {W : World F} {E : Env F} (hO : E.Orders) {b d cs need dup} (hf : Fits W E (.filter b d cs) need dup)
    (ih : Good W E d (fun x => (need x ∧ x ∈ b) ∨ ∃ c ∈ cs, x ∈ c.vars) (dup || !decide (cs.flatMap (fun c => uniq c.vars)).Nodup)) :
    Good W E (.filter b d cs) need dup := by
  obtain ⟨h1, h2, h3, h4⟩ := hf
  intro goal p s r s' hdup hsub hneed h
  simp only [toRam, Option.bind_eq_some_iff, Option.map_eq_some_iff] at h
  obtain ⟨⟨r1, s1⟩, hr1, f, hfe, e, he, h⟩ := h
  have hperm : (cs.flatMap (fun c => E.sortOrder (uniq c.vars))).Perm (cs.flatMap (fun c => uniq c.vars)) :=
    flatMap_perm (fun c => hO.sort _)
  have hmem : ∀ x, x ∈ cs.flatMap (fun c => E.sortOrder (uniq c.vars)) ↔ ∃ c ∈ cs, x ∈ c.vars := by
    intro x
    rw [hperm.mem_iff, List.mem_flatMap]
    simp only [mem_uniq]
  obtain ⟨hle, hc⟩ := ih _ p s r1 s1 (by
      intro hd
      simp only [Bool.or_eq_false_iff, Bool.not_eq_false', decide_eq_true_eq] at hd
      exact nodup_expand (hdup hd.1) (hperm.nodup_iff.mpr hd.2)) (by
      intro x hx
      rcases mem_expand.mp hx with hx | hx
      · exact h1 x (hsub x hx)
      · obtain ⟨c, hc, hx⟩ := (hmem x).mp hx
        exact h2 c hc x hx) (by
      rintro x hx (hn | hn)
      · exact mem_expand.mpr (Or.inl (hneed x hn.2 hn.1))
      · exact mem_expand.mpr (Or.inr ((hmem x).mpr hn))) hr1
  have e1 := congrArg Prod.fst h
  have e2 := congrArg Prod.snd h
  simp only at e1 e2
  subst e1 e2
  refine ⟨hle.trans (process_le _ _ _), fun hs => Corr.process ?_ hs⟩
  have hc := hc (hs.mono (process_le _ _ _))
  have hc' : Corr W (.un (.filter f) r1) (fun τ => Sat W d τ ∧ ∀ c ∈ cs, c.Holds W.X τ)
      (expand goal (cs.flatMap (fun c => E.sortOrder (uniq c.vars)))) := by
    constructor
    · rintro t ⟨ht, hev⟩
      obtain ⟨σ, hσ, hr⟩ := hc.sound t ht
      exact ⟨σ, ⟨hσ, (eval_consExpr hr hfe).mp hev⟩, hr⟩
    · rintro σ ⟨hσ, hcs⟩
      obtain ⟨t, ht, hr⟩ := hc.complete σ hσ
      exact ⟨t, ⟨ht, (eval_consExpr hr hfe).mpr hcs⟩, hr⟩
  refine (hc'.project he).weaken (fun σ hσ => ⟨σ, fun _ _ => rfl, hσ⟩) ?_
  rintro σ ⟨τ, ha, hτ⟩
  exact ⟨τ, hτ, fun x hx => (ha x (hsub x hx)).symm⟩

theorem unit_good {W : World F} {E : Env F} {need dup} : Good W E .unit need dup := by
  intro goal p s r s' _ _ _ h
  simp only [toRam, Option.map_eq_some_iff, Prod.mk.injEq] at h
  obtain ⟨t, ht, rfl, rfl⟩ := h
  refine ⟨St.Le.refl _, fun _ => ⟨?_, ?_⟩⟩
  · rintro u rfl
    refine ⟨fun _ => .bool true, trivial, ?_⟩
    rw [(unitValue_evalV (fun _ => .bool true) ht).1]
    exact Rep.evalV _ _
  · intro σ _
    refine ⟨t, rfl, ?_⟩
    rw [(unitValue_evalV σ ht).1]
    exact Rep.evalV _ _

theorem reduce_good {W : World F} {E : Env F} {r need dup} (hf : Fits W E (.reduce r) need dup) : Good W E (.reduce r) need dup := by
  intro goal p s r' s' _ _ _ h
  simp only [toRam, reduceFlow, Option.map_eq_some_iff] at h
  obtain ⟨e, he, h⟩ := h
  have e1 := congrArg Prod.fst h
  have e2 := congrArg Prod.snd h
  simp only at e1 e2
  subst e1 e2
  refine ⟨process_le _ _ _, fun hs => Corr.process (Corr.project ⟨?_, ?_⟩ he) hs⟩
  · intro t ht
    obtain ⟨σ, rfl⟩ := hf.1 t ht
    exact ⟨σ, ht, Rep.evalV _ _⟩
  · intro σ hσ
    exact ⟨_, hσ, Rep.evalV _ _⟩

theorem const_args : ∀ {as : List (Term String F)} {cs}, as.mapM Term.const? = some cs → ∀ σ : Asg F, as.map (Term.val σ) = cs
  | [], cs, h, σ => by simp at h; subst h; rfl
  | a :: as, cs, h, σ => by
    simp only [List.mapM_cons, Option.bind_eq_bind, Option.bind_eq_some_iff, Option.pure_def, Option.some.injEq] at h
    obtain ⟨c, hc, cs', hcs, rfl⟩ := h
    cases a with
    | var x => simp [Term.const?] at hc
    | const c' =>
      simp only [Term.const?, Option.some.injEq] at hc
      simp only [List.map_cons, const_args hcs σ, Term.val, hc]

theorem fpGround_good {W : World F} {E : Env F} {a free need dup} (hf : Fits W E (.fpGround a free) need dup) :
    Good W E (.fpGround a free) need dup := by
  obtain ⟨h1, h2, h3⟩ := hf
  intro goal p s r' s' _ _ _ h
  simp only [toRam, Option.bind_eq_some_iff, Option.map_eq_some_iff] at h
  obtain ⟨cs, hcs, e, he, h⟩ := h
  have e1 := congrArg Prod.fst h
  have e2 := congrArg Prod.snd h
  simp only at e1 e2
  subst e1 e2
  refine ⟨process_le _ _ _, fun hs => Corr.process (Corr.project ⟨?_, ?_⟩ he) hs⟩
  · rintro t ⟨ws, hw, rfl⟩
    obtain ⟨σ, hσ⟩ := exists_asg h2 (h3 _ _ hw)
    refine ⟨σ, ?_, ?_⟩
    · simp only [Sat]
      rw [const_args hcs, hσ]
      exact hw
    · rw [fromVars_false, uniq_of_nodup h2, ← hσ, ← evalV_vals]
      exact Rep.evalV _ _
  · intro σ hσ
    simp only [Sat] at hσ
    rw [const_args hcs] at hσ
    refine ⟨_, ⟨_, hσ, rfl⟩, ?_⟩
    rw [fromVars_false, uniq_of_nodup h2, ← evalV_vals]
    exact Rep.evalV _ _

theorem argVals_iff {X : Ext F} {g : VTuple} {σ : Asg F} {t} (h : Rep g σ t) {as : List (Term String F)} {es} (he : termExprs g as = some es)
    (vs : List (Val F)) : argVals X es t vs ↔ vs = as.map (Term.val σ) := by
  unfold argVals
  rw [evalList_termExprs h he]
  constructor
  · intro h
    have h : (as.map (Term.val σ)).map Tup.val = vs.map Tup.val := by simpa using h
    exact (List.map_injective_iff.mpr (fun a b hab => by simpa using hab) h).symm
  · rintro rfl; rfl

theorem fpConstraint_good {W : World F} {E : Env F} (hO : E.Orders) {b d a need dup} (hf : Fits W E (.fpConstraint b d a) need dup)
    (ih : Good W E d (fun _ => True) false) : Good W E (.fpConstraint b d a) need dup := by
  obtain ⟨h1, h2, h3⟩ := hf
  intro goal p s r' s' _ hsub _ h
  simp only [toRam, Option.bind_eq_some_iff, Option.map_eq_some_iff] at h
  obtain ⟨⟨r1, s1⟩, hr1, es, hes, e, he, h⟩ := h
  obtain ⟨hle, hc⟩ := ih _ _ s r1 s1 (fun _ => nodup_fromVars _ _) (fun x hx => (hO.hash _).mem_iff.mp (mem_fromVars.mp hx))
    (fun x hx _ => mem_fromVars.mpr ((hO.hash _).mem_iff.mpr hx)) hr1
  have e1 := congrArg Prod.fst h
  have e2 := congrArg Prod.snd h
  simp only at e1 e2
  subst e1 e2
  refine ⟨hle.trans (process_le _ _ _), fun hs => Corr.process ?_ hs⟩
  have hc := hc (hs.mono (process_le _ _ _))
  have hc' : Corr W (.un (.foreignConstraint a.predicate es) r1) (fun τ => Sat W d τ ∧ W.Fp a.predicate (a.args.map (Term.val τ)) [])
      (fromVars (E.hashOrder d.bounded) false) := by
    constructor
    · rintro t ⟨ht, vs, hv, hp⟩
      obtain ⟨σ, hσ, hr⟩ := hc.sound t ht
      rw [argVals_iff hr hes] at hv
      exact ⟨σ, ⟨hσ, hv ▸ hp⟩, hr⟩
    · rintro σ ⟨hσ, hp⟩
      obtain ⟨t, ht, hr⟩ := hc.complete σ hσ
      exact ⟨t, ⟨ht, _, (argVals_iff hr hes _).mpr rfl, hp⟩, hr⟩
  refine (hc'.project he).weaken (fun σ hσ => ⟨σ, fun _ _ => rfl, hσ⟩) ?_
  rintro σ ⟨τ, ha, hτ⟩
  exact ⟨τ, hτ, fun x hx => (ha x (hsub x hx)).symm⟩

theorem fpJoin_good {W : World F} {E : Env F} (hO : E.Orders) {d a free need dup} (hf : Fits W E (.fpJoin d a free) need dup)
    (ih : Good W E d (fun _ => True) false) : Good W E (.fpJoin d a free) need dup := by
  obtain ⟨h1, h2, h3, h4, h5⟩ := hf
  intro goal p s r' s' _ hsub _ h
  simp only [toRam, Option.bind_eq_some_iff, Option.map_eq_some_iff] at h
  obtain ⟨⟨r1, s1⟩, hr1, es, hes, e, he, h⟩ := h
  obtain ⟨hle, hc⟩ := ih _ _ s r1 s1 (fun _ => nodup_fromVars _ _) (fun x hx => (hO.hash _).mem_iff.mp (mem_fromVars.mp hx))
    (fun x hx _ => mem_fromVars.mpr ((hO.hash _).mem_iff.mpr hx)) hr1
  have e1 := congrArg Prod.fst h
  have e2 := congrArg Prod.snd h
  simp only at e1 e2
  subst e1 e2
  refine ⟨hle.trans (process_le _ _ _), fun hs => Corr.process (Corr.project ?_ he) hs⟩
  have hc := hc (hs.mono (process_le _ _ _))
  constructor
  · rintro t ⟨u, vs, ws, hu, hv, hp, rfl⟩
    obtain ⟨σ, hσ, hr⟩ := hc.sound u hu
    rw [argVals_iff hr hes] at hv
    subst hv
    obtain ⟨ρ, hρ⟩ := exists_asg h1 (h4 _ _ hp)
    have hag : ∀ x ∈ d.bounded, σ x = (fun x => if x ∈ free then ρ x else σ x) x :=
      fun x hx => by simp only; rw [if_neg (fun hx' => h2 x hx' hx)]
    have hfr : free.map (fun x => if x ∈ free then ρ x else σ x) = ws := by
      rw [← hρ]; exact List.map_congr_left (fun x hx => by rw [if_pos hx])
    refine ⟨fun x => if x ∈ free then ρ x else σ x, ⟨Sat.congr h5 hag hσ, ?_⟩, Rep.pair (hr.congr ?_) ?_⟩
    · rw [hfr, ← atom_args_congr (σ := σ) (fun x hx => hag x (h3 x hx))]
      exact hp
    · intro x hx
      exact hag x ((hO.hash _).mem_iff.mp (mem_fromVars.mp hx))
    · rw [fromVars_false, uniq_of_nodup h1, ← hfr, ← evalV_vals]
      exact Rep.evalV _ _
  · rintro σ ⟨hσ, hp⟩
    obtain ⟨t, ht, hr⟩ := hc.complete σ hσ
    refine ⟨_, ⟨t, _, _, ht, (argVals_iff hr hes _).mpr rfl, hp, rfl⟩, Rep.pair hr ?_⟩
    rw [fromVars_false, uniq_of_nodup h1, ← evalV_vals]
    exact Rep.evalV _ _

/-! ## Projections with assignments -/

theorem lastLookup_mem {β : Type} {x : String} : ∀ {l : List (String × β)} {v}, lastLookup x l = some v → (x, v) ∈ l
  | [], v, h => by simp [lastLookup] at h
  | (k, w) :: l, v, h => by
    simp only [lastLookup] at h
    split at h
    · rename_i w' hw
      cases h
      exact List.mem_cons_of_mem _ (lastLookup_mem hw)
    · split at h
      · rename_i e; cases h; simp [e]
      · cases h

theorem lastLookup_of_mem {β : Type} {x : String} : ∀ {l : List (String × β)} {v}, (l.map Prod.fst).Nodup → (x, v) ∈ l → lastLookup x l = some v
  | [], v, _, h => by cases h
  | (k, w) :: l, v, hn, h => by
    simp only [List.map_cons, List.nodup_cons] at hn
    simp only [List.mem_cons, Prod.mk.injEq] at h
    simp only [lastLookup]
    rcases h with ⟨rfl, rfl⟩ | h
    · have : lastLookup x l = none := by
        cases h : lastLookup x l with
        | none => rfl
        | some w => exact absurd (List.mem_map.mpr ⟨_, lastLookup_mem h, rfl⟩) hn.1
      rw [this]
      simp
    · rw [lastLookup_of_mem hn.2 h]

mutual
theorem eval_projectionAssigns {X : Ext F} {self : VTuple} {as : List (String × AExpr String F)} {σ σ' : Asg F} {t} (h : Rep self σ t)
    (hs : ∀ x ∈ leaves self, σ x = σ' x) :
    ∀ {g : VTuple} {e : Expr F}, projectionAssigns self as g = some e →
      (∀ x ∈ leaves g, x ∉ leaves self → ∃ a, lastLookup x as = some a ∧ a.val X σ = .ok (σ' x)) → e.eval X t = .ok (evalV σ' g)
  | .val x, e, he, hl => by
    simp only [projectionAssigns] at he
    split at he
    · rename_i a ha
      rw [mkAccess_eq he, eval_access (h.acc x a ha), evalV, hs x (accessorOf_mem ha)]
    · rename_i ha
      obtain ⟨a, h1, h2⟩ := hl x (by simp [leaves]) (accessorOf_none.mp ha)
      rw [h1, Option.bind_some] at he
      rw [eval_assignExpr h he, h2]
      rfl
  | .tup gs, e, he, hl => by
    simp only [projectionAssigns, Option.map_eq_some_iff] at he
    obtain ⟨es, h1, rfl⟩ := he
    rw [Expr.eval.eq_1, evalList_projectionAssigns h hs h1 (by simpa [leaves] using hl)]
    rfl
theorem evalList_projectionAssigns {X : Ext F} {self : VTuple} {as : List (String × AExpr String F)} {σ σ' : Asg F} {t} (h : Rep self σ t)
    (hs : ∀ x ∈ leaves self, σ x = σ' x) :
    ∀ {gs : List VTuple} {es : List (Expr F)}, projectionAssignsList self as gs = some es →
      (∀ x ∈ leavesList gs, x ∉ leaves self → ∃ a, lastLookup x as = some a ∧ a.val X σ = .ok (σ' x)) →
      Expr.evalList X es t = .ok (evalVs σ' gs)
  | [], es, he, _ => by simp only [projectionAssignsList, Option.some.injEq] at he; subst he; rw [Expr.evalList.eq_1]; rfl
  | g :: gs, es, he, hl => by
    simp only [projectionAssignsList, Option.bind_eq_some_iff, Option.map_eq_some_iff] at he
    obtain ⟨e, h1, es', h2, rfl⟩ := he
    rw [Expr.evalList.eq_2, eval_projectionAssigns h hs h1 (fun x hx => hl x (by simp [leavesList, hx])), Outcome.bind,
      evalList_projectionAssigns h hs h2 (fun x hx => hl x (by simp [leavesList, hx]))]
    rfl
end

mutual
theorem projectionAssigns_defined {X : Ext F} {self : VTuple} {as : List (String × AExpr String F)} {σ : Asg F} {t} (h : Rep self σ t) :
    ∀ {g : VTuple} {e : Expr F} {t'}, projectionAssigns self as g = some e → e.eval X t = .ok t' →
      ∀ x ∈ leaves g, x ∉ leaves self → ∃ a v, lastLookup x as = some a ∧ a.val X σ = .ok v
  | .val x, e, t', he, hev, y, hy, hys => by
    simp only [leaves, List.mem_singleton] at hy
    subst hy
    simp only [projectionAssigns] at he
    split at he
    · rename_i a ha
      exact absurd (accessorOf_mem ha) hys
    · rename_i ha
      rw [Option.bind_eq_some_iff] at he
      obtain ⟨a, h1, h2⟩ := he
      rw [eval_assignExpr h h2] at hev
      cases hv : a.val X σ with
      | ok v => exact ⟨a, v, h1, hv⟩
      | undef => rw [hv] at hev; cases hev
      | panic => rw [hv] at hev; cases hev
  | .tup gs, e, t', he, hev, y, hy, hys => by
    simp only [projectionAssigns, Option.map_eq_some_iff] at he
    obtain ⟨es, h1, rfl⟩ := he
    rw [Expr.eval.eq_1] at hev
    cases hv : Expr.evalList X es t with
    | ok ts => exact projectionAssignsList_defined h h1 hv y (by simpa [leaves] using hy) hys
    | undef => rw [hv] at hev; cases hev
    | panic => rw [hv] at hev; cases hev
theorem projectionAssignsList_defined {X : Ext F} {self : VTuple} {as : List (String × AExpr String F)} {σ : Asg F} {t} (h : Rep self σ t) :
    ∀ {gs : List VTuple} {es : List (Expr F)} {ts'}, projectionAssignsList self as gs = some es → Expr.evalList X es t = .ok ts' →
      ∀ x ∈ leavesList gs, x ∉ leaves self → ∃ a v, lastLookup x as = some a ∧ a.val X σ = .ok v
  | [], es, ts', he, hev, y, hy, hys => by simp [leavesList] at hy
  | g :: gs, es, ts', he, hev, y, hy, hys => by
    simp only [projectionAssignsList, Option.bind_eq_some_iff, Option.map_eq_some_iff] at he
    obtain ⟨e, h1, es', h2, rfl⟩ := he
    rw [Expr.evalList.eq_2] at hev
    cases hv : e.eval X t with
    | ok u =>
      rw [hv] at hev
      cases hv' : Expr.evalList X es' t with
      | ok us =>
        simp only [leavesList, List.mem_append] at hy
        rcases hy with hy | hy
        · exact projectionAssigns_defined h h1 hv y hy hys
        · exact projectionAssignsList_defined h h2 hv' y hy hys
      | undef => rw [hv'] at hev; cases hev
      | panic => rw [hv'] at hev; cases hev
    | undef => rw [hv] at hev; cases hev
    | panic => rw [hv] at hev; cases hev
end

/-- An assignment extended by the values of assignments. -/
def withAssigns (X : Ext F) (b : List String) (as : List (String × AExpr String F)) (σ : Asg F) : Asg F := fun x =>
  if x ∈ b then σ x
  else match lastLookup x as with
    | some a => match a.val X σ with | .ok v => v | _ => σ x
    | none => σ x

theorem project_good {W : World F} {E : Env F} (hO : E.Orders) {b d as need dup} (hf : Fits W E (.project b d as) need dup)
    (ih : Good W E d (fun x => need x ∨ ∃ a ∈ as, need a.1 ∧ x ∈ a.2.vars) dup) : Good W E (.project b d as) need dup := by
  obtain ⟨hb, hl, hn, hdef, hfit⟩ := hf
  intro goal p s r s' hdup hsub hneed h
  -- the extension of an assignment for which all right-hand sides are defined
  have hext : ∀ σ, Sat W d σ → (∀ a ∈ as, ∃ v, a.2.val W.X σ = .ok v) →
      Sat W (.project b d as) (withAssigns W.X d.bounded as σ) := by
    intro σ hσ hd
    have hag : ∀ x ∈ d.bounded, σ x = withAssigns W.X d.bounded as σ x := fun x hx => by rw [withAssigns, if_pos hx]
    refine ⟨Sat.congr hfit hag hσ, ?_⟩
    intro a ha
    obtain ⟨v, hv⟩ := hd a ha
    rw [← aexpr_congr (σ := σ) (fun x hx => hag x ((hl a ha).2 x hx)), hv, withAssigns, if_neg (hl a ha).1,
      lastLookup_of_mem hn (show (a.1, a.2) ∈ as from ha)]
    simp only [hv]
  simp only [toRam] at h
  rw [projectFlow] at h
  simp only at h
  split at h
  · rename_i h0
    have h0' : ∀ x ∈ leaves goal, x ∈ d.bounded := by
      intro x hx
      simp only [List.isEmpty_iff, List.filter_eq_nil_iff, decide_eq_true_eq, not_not] at h0
      exact h0 x (mem_vars.mpr hx)
    have hno : ∀ a ∈ as, ¬ need a.1 := fun a ha hna =>
      (hl a ha).1 (h0' a.1 (hneed a.1 ((hb a.1).mpr (Or.inr ⟨a, ha, rfl⟩)) hna))
    obtain ⟨hle, hc⟩ := ih goal p s r s' hdup h0' (by
      rintro x hx (hx' | ⟨a, ha, hna, _⟩)
      · exact hneed x ((hb x).mpr (Or.inl hx)) hx'
      · exact absurd hna (hno a ha)) h
    refine ⟨hle, fun hs => (hc hs).weaken' ?_ ?_⟩
    · intro σ hσ
      refine ⟨_, hext σ hσ (fun a ha => ?_), fun x hx => by rw [withAssigns, if_pos (h0' x hx)]⟩
      rcases hdef a ha with h | h
      · exact absurd h (hno a ha)
      · exact h σ hσ
    · intro σ hσ
      exact ⟨σ, hσ.1, fun _ _ => rfl⟩
  · split at h
    · cases h
    · rename_i h0 h1
      rw [Option.bind_eq_some_iff] at h
      obtain ⟨⟨r1, s1⟩, hr1, h⟩ := h
      simp only [Option.map_eq_some_iff] at h
      obtain ⟨e, he, h⟩ := h
      have hcur : ∀ a ∈ as.filter (fun a => decide (a.1 ∈ (vars goal).filter (fun v => decide (v ∉ d.bounded)))), ∀ x ∈ a.2.vars, x ∈ d.bounded :=
        fun a ha => (hl a (List.mem_filter.mp ha).1).2
      generalize hg : fromVars (E.hashOrder ((vars goal).filter (fun v => decide (v ∈ d.bounded))) ++
        (as.filter (fun a => decide (a.1 ∈ (vars goal).filter (fun v => decide (v ∉ d.bounded))))).flatMap (fun a => a.2.vars)) false = subGoal at hr1 he
      have hgm : ∀ x, x ∈ leaves subGoal ↔ (x ∈ leaves goal ∧ x ∈ d.bounded) ∨
          ∃ a ∈ as, a.1 ∈ leaves goal ∧ a.1 ∉ d.bounded ∧ x ∈ a.2.vars := by
        intro x
        rw [← hg, mem_fromVars, List.mem_append, (hO.hash _).mem_iff, List.mem_filter, mem_vars, decide_eq_true_eq, List.mem_flatMap]
        simp only [List.mem_filter, mem_vars, decide_eq_true_eq, and_assoc]
      have hgb : ∀ x ∈ leaves subGoal, x ∈ d.bounded := by
        intro x hx
        rcases (hgm x).mp hx with h | ⟨a, ha, _, _, hx⟩
        · exact h.2
        · exact (hl a ha).2 x hx
      rw [projectFlow] at hr1
      simp only at hr1
      rw [if_pos (by
        simp only [List.isEmpty_iff, List.filter_eq_nil_iff, decide_eq_true_eq, not_not]
        exact fun x hx => hgb x (mem_vars.mp hx))] at hr1
      obtain ⟨hle, hc⟩ := ih subGoal _ s r1 s1 (fun _ => by rw [← hg]; exact nodup_fromVars _ _) hgb (by
        rintro x hx (hx' | ⟨a, ha, hna, hxa⟩)
        · exact (hgm x).mpr (Or.inl ⟨hneed x ((hb x).mpr (Or.inl hx)) hx', hx⟩)
        · exact (hgm x).mpr (Or.inr ⟨a, ha, hneed a.1 ((hb a.1).mpr (Or.inr ⟨a, ha, rfl⟩)) hna, (hl a ha).1, hxa⟩)) hr1
      have e1 := congrArg Prod.fst h
      have e2 := congrArg Prod.snd h
      simp only at e1 e2
      subst e1 e2
      refine ⟨hle.trans (process_le _ _ _), fun hs => Corr.process ?_ hs⟩
      have hc := hc (hs.mono (process_le _ _ _))
      have hlook : ∀ x v, lastLookup x (as.filter (fun a => decide (a.1 ∈ (vars goal).filter (fun v => decide (v ∉ d.bounded))))) = some v →
          (x, v) ∈ as := fun x v h => (List.mem_filter.mp (lastLookup_mem h)).1
      have hlook' : ∀ x v, (x, v) ∈ as → x ∈ leaves goal →
          lastLookup x (as.filter (fun a => decide (a.1 ∈ (vars goal).filter (fun v => decide (v ∉ d.bounded))))) = some v := by
        intro x v hm hx
        apply lastLookup_of_mem
        · exact (List.Sublist.map _ List.filter_sublist).nodup hn
        · rw [List.mem_filter, decide_eq_true_eq, List.mem_filter, mem_vars, decide_eq_true_eq]
          exact ⟨hm, hx, (hl _ hm).1⟩
      constructor
      · rintro t' ⟨t, ht, hev⟩
        obtain ⟨σ, hσ, hr⟩ := hc.sound t ht
        have hd := projectionAssigns_defined hr he hev
        have hall : ∀ a ∈ as, ∃ v, a.2.val W.X σ = .ok v := by
          intro a ha
          by_cases hag : a.1 ∈ leaves goal
          · obtain ⟨a', v, h2, h3⟩ := hd a.1 hag (fun hx => (hl a ha).1 (hgb _ hx))
            have : some a' = some a.2 := by rw [← h2]; exact hlook' a.1 a.2 ha hag
            cases this
            exact ⟨v, h3⟩
          · rcases hdef a ha with h | h
            · exact absurd (hneed a.1 ((hb a.1).mpr (Or.inr ⟨a, ha, rfl⟩)) h) hag
            · exact h σ hσ
        refine ⟨_, hext σ hσ hall, ?_⟩
        have := eval_projectionAssigns (X := W.X) (σ' := withAssigns W.X d.bounded as σ) hr (fun x hx => by rw [withAssigns, if_pos (hgb x hx)]) he (by
          intro x hx hxs
          obtain ⟨a, v, h2, h3⟩ := hd x hx hxs
          refine ⟨a, h2, ?_⟩
          have hm := hlook x a h2
          rw [h3, withAssigns, if_neg (hl _ hm).1, lastLookup_of_mem hn hm]
          simp only [h3])
        rw [this] at hev
        cases hev
        exact Rep.evalV _ _
      · intro σ hσ
        obtain ⟨t, ht, hr⟩ := hc.complete σ hσ.1
        refine ⟨evalV σ goal, ⟨t, ht, ?_⟩, Rep.evalV _ _⟩
        refine eval_projectionAssigns hr (fun _ _ => rfl) he ?_
        intro x hx hxs
        have hxb := (hb x).mp (hsub x hx)
        rcases hxb with hxb | ⟨a, ha, rfl⟩
        · exact absurd ((hgm x).mpr (Or.inl ⟨hx, hxb⟩)) hxs
        · exact ⟨a.2, hlook' a.1 a.2 ha hx, hσ.2 a ha⟩

/-! ## Joins -/

theorem mem_joinVars {d1 d2 : Plan F} {x : String} : x ∈ joinVars d1 d2 ↔ x ∈ d1.bounded ∧ x ∈ d2.bounded := by
  simp [joinVars, List.mem_filter, mem_uniq]

theorem sameSet_iff {a b : List String} : sameSet a b = true ↔ ∀ x, x ∈ a ↔ x ∈ b := by
  simp only [sameSet, Bool.and_eq_true, List.all_eq_true, decide_eq_true_eq]
  exact ⟨fun h x => ⟨h.1 x, h.2 x⟩, fun h => ⟨fun x => (h x).mp, fun x => (h x).mpr⟩⟩

theorem directAtom_bounded {W : World F} {E : Env F} : ∀ {d : Plan F} {a need dup}, Fits W E d need dup → d.directAtom = some a →
    ∀ x, x ∈ d.bounded ↔ x ∈ atomVars a
  | .ground b, a, _, _, _, h, x => by
    simp only [Plan.directAtom, Option.some.injEq] at h
    subst h
    exact Iff.rfl
  | .filter b d cs, a, _, _, hf, h, x => by
    obtain ⟨h1, _, h3, h4⟩ := hf
    simp only [Plan.directAtom] at h
    rw [← directAtom_bounded h4 h x]
    exact ⟨h1 x, h3 (by rw [h]; rfl) x⟩
  | .unit, _, _, _, _, h, _ => by cases h
  | .reduce _, _, _, _, _, h, _ => by cases h
  | .project _ _ _, _, _, _, _, h, _ => by cases h
  | .join _ _, _, _, _, _, h, _ => by cases h
  | .antijoin _ _, _, _, _, _, h, _ => by cases h
  | .fpGround _ _, _, _, _, _, h, _ => by cases h
  | .fpConstraint _ _ _, _, _, _, _, h, _ => by cases h
  | .fpJoin _ _ _, _, _, _, _, h, _ => by cases h

theorem commonGoal_spec {W : World F} {E : Env F} (hO : E.Orders) {goal : VTuple} {d1 d2 : Plan F} {n1 n2 b1 b2} (h1 : Fits W E d1 n1 b1)
    (h2 : Fits W E d2 n2 b2) (hs : ∀ x, x ∈ d1.bounded ↔ x ∈ d2.bounded) (hd : d1.directAtom.isSome ∨ d2.directAtom.isSome) :
    (leaves (commonGoal E goal d1 d2)).Nodup ∧ ∀ x, x ∈ leaves (commonGoal E goal d1 d2) ↔ x ∈ d1.bounded := by
  have key : ∀ a : Atom String F, (∀ x, x ∈ d1.bounded ↔ x ∈ atomVars a) →
      (leaves (fromVars (E.sortOrder (uniq (atomVars a))) false)).Nodup ∧
        ∀ x, x ∈ leaves (fromVars (E.sortOrder (uniq (atomVars a))) false) ↔ x ∈ d1.bounded := by
    intro a ha
    refine ⟨nodup_fromVars _ _, fun x => ?_⟩
    rw [mem_fromVars, (hO.sort _).mem_iff, mem_uniq, ha x]
  unfold commonGoal
  cases e1 : d1.directAtom with
  | some a => exact key a (directAtom_bounded h1 e1)
  | none =>
    cases e2 : d2.directAtom with
    | some a => exact key a (fun x => (hs x).trans (directAtom_bounded h2 e2 x))
    | none => rw [e1, e2] at hd; simp at hd

theorem subTuple_spec {W : World F} {E : Env F} (hO : E.Orders) {goal : VTuple} {d : Plan F} {n b} (h : Fits W E d n b) :
    (leaves (subTuple E goal d)).Nodup ∧ ∀ x, x ∈ leaves (subTuple E goal d) ↔ x ∈ d.bounded ∧ x ∈ leaves goal := by
  have key : (leaves (subtuple goal (E.sortOrder (uniq d.bounded)))).Nodup ∧
      ∀ x, x ∈ leaves (subtuple goal (E.sortOrder (uniq d.bounded))) ↔ x ∈ d.bounded ∧ x ∈ leaves goal := by
    refine ⟨nodup_subtuple ((hO.sort _).nodup_iff.mpr (nodup_uniq _)), fun x => ?_⟩
    rw [mem_subtuple, (hO.sort _).mem_iff, mem_uniq]
  unfold subTuple
  split
  · rename_i a ha
    split
    · rename_i hc
      simp only [Bool.and_eq_true, decide_eq_true_eq] at hc
      refine ⟨nodup_subtuple hc.2, fun x => ?_⟩
      rw [mem_subtuple, directAtom_bounded h ha x]
    · exact key
  · exact key

theorem nodup_pair {g1 g2 : VTuple} (h1 : (leaves g1).Nodup) (h2 : (leaves g2).Nodup) (hd : ∀ x ∈ leaves g1, x ∉ leaves g2) :
    (leaves (.tup [g1, g2])).Nodup := by
  simp only [leaves, leavesList, List.append_nil, List.nodup_append]
  exact ⟨h1, h2, fun a ha b hb e => hd a ha (e ▸ hb)⟩

theorem mem_pair {g1 g2 : VTuple} {x : String} : x ∈ leaves (.tup [g1, g2]) ↔ x ∈ leaves g1 ∨ x ∈ leaves g2 := by
  simp [leaves, leavesList]

theorem joinGoal_spec {E : Env F} (hO : E.Orders) {joint : List String} {goal : VTuple} {d : Plan F} :
    (leaves (joinGoal E joint goal d)).Nodup ∧ ∀ x, x ∈ leaves (joinGoal E joint goal d) ↔ x ∈ leaves goal ∧ x ∈ d.bounded ∧ x ∉ joint := by
  refine ⟨nodup_fromVars _ _, fun x => ?_⟩
  rw [joinGoal, mem_fromVars, (hO.sort _).mem_iff, List.mem_filter, mem_vars]
  simp

theorem key_spec {E : Env F} (hO : E.Orders) {d1 d2 : Plan F} :
    (leaves (fromVars (E.sortOrder (joinVars d1 d2)) true)).Nodup ∧
      ∀ x, x ∈ leaves (fromVars (E.sortOrder (joinVars d1 d2)) true) ↔ x ∈ joinVars d1 d2 :=
  ⟨nodup_fromVars _ _, fun x => by rw [mem_fromVars, (hO.sort _).mem_iff]⟩

/-- Two assignments put together. -/
def merge (b : List String) (σ τ : Asg F) : Asg F := fun x => if x ∈ b then σ x else τ x

theorem merge_left {b : List String} {σ τ : Asg F} {x} (h : x ∈ b) : merge b σ τ x = σ x := if_pos h

theorem merge_right {b : List String} {σ τ : Asg F} {x} (h : x ∈ b → σ x = τ x) : merge b σ τ x = τ x := by
  unfold merge; split
  · rename_i hx; exact h hx
  · rfl

theorem indexedVec_eq {E : Env F} {d : Dataflow F} {r} (h : indexedVec? E d = some r) : d = .leaf (.rel r) := by
  unfold indexedVec? at h
  split at h
  · split at h
    · cases h; rfl
    · cases h
  · cases h

theorem product_corr {W : World F} {E : Env F} {d1 d2 : Plan F} {n1 n2 b1 b2 g1 g2 r1 r2} (h1 : Fits W E d1 n1 b1) (h2 : Fits W E d2 n2 b2)
    (hj : joinVars d1 d2 = []) (hg1 : ∀ x ∈ leaves g1, x ∈ d1.bounded) (hg2 : ∀ x ∈ leaves g2, x ∈ d2.bounded)
    (c1 : Corr W r1 (Sat W d1) g1) (c2 : Corr W r2 (Sat W d2) g2) : Corr W (.bin .product r1 r2) (Sat W (.join d1 d2)) (.tup [g1, g2]) := by
  have hdis : ∀ x, x ∈ d1.bounded → x ∉ d2.bounded := fun x h h' => by
    have : x ∈ joinVars d1 d2 := mem_joinVars.mpr ⟨h, h'⟩
    rw [hj] at this; cases this
  constructor
  · rintro t ⟨u, v, hu, hv, rfl⟩
    obtain ⟨σ, hσ, hr⟩ := c1.sound u hu
    obtain ⟨τ, hτ, hr'⟩ := c2.sound v hv
    have hl : ∀ x ∈ d1.bounded, σ x = merge d1.bounded σ τ x := fun x hx => (merge_left hx).symm
    have hrr : ∀ x ∈ d2.bounded, τ x = merge d1.bounded σ τ x := fun x hx => (merge_right (fun h => absurd hx (hdis x h))).symm
    exact ⟨merge d1.bounded σ τ, ⟨Sat.congr h1 hl hσ, Sat.congr h2 hrr hτ⟩,
      Rep.pair (hr.congr (fun x hx => hl x (hg1 x hx))) (hr'.congr (fun x hx => hrr x (hg2 x hx)))⟩
  · rintro σ ⟨hσ1, hσ2⟩
    obtain ⟨u, hu, hr⟩ := c1.complete σ hσ1
    obtain ⟨v, hv, hr'⟩ := c2.complete σ hσ2
    exact ⟨_, ⟨u, v, hu, hv, rfl⟩, Rep.pair hr hr'⟩

theorem intersect_corr {W : World F} {E : Env F} {d1 d2 : Plan F} {n2 b2 g r1 r2} (h2 : Fits W E d2 n2 b2) (hn : (leaves g).Nodup)
    (hg : ∀ x ∈ d2.bounded, x ∈ leaves g)
    (c1 : Corr W r1 (Sat W d1) g) (c2 : Corr W r2 (Sat W d2) g) : Corr W (.bin .intersect r1 r2) (Sat W (.join d1 d2)) g := by
  constructor
  · rintro t ⟨hu, hv⟩
    obtain ⟨σ, hσ, hr⟩ := c1.sound t hu
    obtain ⟨τ, hτ, hr'⟩ := c2.sound t hv
    have he : evalV τ g = evalV σ g := by rw [← hr.exact hn, ← hr'.exact hn]
    exact ⟨σ, ⟨hσ, Sat.congr h2 (fun x hx => evalV_inj g he x (hg x hx)) hτ⟩, hr⟩
  · rintro σ ⟨hσ1, hσ2⟩
    obtain ⟨u, hu, hr⟩ := c1.complete σ hσ1
    obtain ⟨v, hv, hr'⟩ := c2.complete σ hσ2
    have : u = v := by rw [hr.exact hn, hr'.exact hn]
    subst this
    exact ⟨_, ⟨hu, hv⟩, hr⟩

theorem join_corr {W : World F} {E : Env F} {d1 d2 : Plan F} {n1 n2 b1 b2 k g1 g2 r1 r2} (h1 : Fits W E d1 n1 b1) (h2 : Fits W E d2 n2 b2)
    (hn1 : (leaves (.tup [k, g1])).Nodup) (hn2 : (leaves (.tup [k, g2])).Nodup) (hk : ∀ x, x ∈ leaves k ↔ x ∈ joinVars d1 d2)
    (hg1 : ∀ x ∈ leaves g1, x ∈ d1.bounded) (hg2 : ∀ x ∈ leaves g2, x ∈ d2.bounded)
    (c1 : Corr W r1 (Sat W d1) (.tup [k, g1])) (c2 : Corr W r2 (Sat W d2) (.tup [k, g2])) :
    Corr W (.bin .join r1 r2) (Sat W (.join d1 d2)) (.tup [k, g1, g2]) := by
  constructor
  · rintro t ⟨kt, u, v, ⟨x, hu, hx0, hx1⟩, ⟨y, hv, hy0, hy1⟩, rfl⟩
    obtain ⟨σ, hσ, hr⟩ := c1.sound _ hu
    obtain ⟨τ, hτ, hr'⟩ := c2.sound _ hv
    have e1 := hr.exact hn1
    have e2 := hr'.exact hn2
    simp only [evalV, evalVs] at e1 e2
    subst e1 e2
    have ek1 : kt = evalV σ k := (Option.some.inj hx0).symm
    have ek2 : kt = evalV τ k := (Option.some.inj hy0).symm
    obtain rfl : evalV σ g1 = u := Option.some.inj hx1
    obtain rfl : evalV τ g2 = v := Option.some.inj hy1
    have hkk : evalV σ k = evalV τ k := by rw [← ek1, ← ek2]
    have hjoint : ∀ x, x ∈ d1.bounded → x ∈ d2.bounded → σ x = τ x := fun x hx hx' =>
      evalV_inj k hkk x ((hk x).mpr (mem_joinVars.mpr ⟨hx, hx'⟩))
    have hl : ∀ x ∈ d1.bounded, σ x = merge d1.bounded σ τ x := fun x hx => (merge_left hx).symm
    have hrr : ∀ x ∈ d2.bounded, τ x = merge d1.bounded σ τ x := fun x hx => (merge_right (fun h => hjoint x h hx)).symm
    refine ⟨merge d1.bounded σ τ, ⟨Sat.congr h1 hl hσ, Sat.congr h2 hrr hτ⟩, ?_⟩
    rw [ek1]
    exact Rep.triple ((Rep.evalV σ k).congr (fun x hx => hl x (mem_joinVars.mp ((hk x).mp hx)).1))
      ((Rep.evalV σ g1).congr (fun x hx => hl x (hg1 x hx))) ((Rep.evalV τ g2).congr (fun x hx => hrr x (hg2 x hx)))
  · rintro σ ⟨hσ1, hσ2⟩
    obtain ⟨u, hu, hr⟩ := c1.complete σ hσ1
    obtain ⟨v, hv, hr'⟩ := c2.complete σ hσ2
    rw [hr.exact hn1] at hu
    rw [hr'.exact hn2] at hv
    exact ⟨_, ⟨_, _, _, ⟨_, hu, rfl, rfl⟩, ⟨_, hv, rfl, rfl⟩, rfl⟩, Rep.triple (Rep.evalV _ _) (Rep.evalV _ _) (Rep.evalV _ _)⟩

theorem antijoin_corr {W : World F} {E : Env F} {d1 d2 : Plan F} {k g1 r1 r2}
    (hn1 : (leaves (.tup [k, g1])).Nodup) (hnk : (leaves k).Nodup) (hk : ∀ x, x ∈ leaves k ↔ x ∈ joinVars d1 d2)
    (c1 : Corr W r1 (Sat W d1) (.tup [k, g1])) (c2 : Corr W r2 (Sat W d2) k) :
    Corr W (.bin .antijoin r1 r2) (Sat W (.antijoin d1 d2)) (.tup [k, g1]) := by
  constructor
  · rintro t ⟨ht, hnot⟩
    obtain ⟨σ, hσ, hr⟩ := c1.sound _ ht
    refine ⟨σ, ⟨hσ, ?_⟩, hr⟩
    rintro ⟨τ, ha, hτ⟩
    obtain ⟨v, hv, hr'⟩ := c2.complete τ hτ
    refine hnot _ (hr.fst k [g1] rfl hnk) ?_
    rw [evalV_congr k (τ := τ) (fun x hx => ha x ((hk x).mp hx)), ← hr'.exact hnk]
    exact hv
  · rintro σ ⟨hσ1, hσ2⟩
    obtain ⟨u, hu, hr⟩ := c1.complete σ hσ1
    refine ⟨u, ⟨hu, ?_⟩, hr⟩
    intro kt hat hd
    rw [hr.fst k [g1] rfl hnk] at hat
    cases hat
    obtain ⟨τ, hτ, hr'⟩ := c2.sound _ hd
    exact hσ2 ⟨τ, fun x hx => evalV_inj k (hr'.exact hnk) x ((hk x).mpr hx), hτ⟩

theorem difference_corr {W : World F} {E : Env F} {d1 d2 : Plan F} {g r1 r2} (hn : (leaves g).Nodup)
    (hg : ∀ x, x ∈ leaves g ↔ x ∈ joinVars d1 d2)
    (c1 : Corr W r1 (Sat W d1) g) (c2 : Corr W r2 (Sat W d2) g) : Corr W (.bin .difference r1 r2) (Sat W (.antijoin d1 d2)) g := by
  constructor
  · rintro t ⟨ht, hnot⟩
    obtain ⟨σ, hσ, hr⟩ := c1.sound _ ht
    refine ⟨σ, ⟨hσ, ?_⟩, hr⟩
    rintro ⟨τ, ha, hτ⟩
    obtain ⟨v, hv, hr'⟩ := c2.complete τ hτ
    refine hnot ?_
    rw [hr.exact hn, evalV_congr g (τ := τ) (fun x hx => ha x ((hg x).mp hx)), ← hr'.exact hn]
    exact hv
  · rintro σ ⟨hσ1, hσ2⟩
    obtain ⟨u, hu, hr⟩ := c1.complete σ hσ1
    refine ⟨u, ⟨hu, ?_⟩, hr⟩
    intro hd
    obtain ⟨τ, hτ, hr'⟩ := c2.sound _ hd
    exact hσ2 ⟨τ, fun x hx => evalV_inj g (by rw [← hr.exact hn, ← hr'.exact hn]) x ((hg x).mpr hx), hτ⟩

theorem join_good {W : World F} {E : Env F} (hO : E.Orders) {d1 d2 : Plan F} {need dup} (hf : Fits W E (.join d1 d2) need dup)
    (ih1 : Good W E d1 (fun x => need x ∨ x ∈ joinVars d1 d2) false) (ih2 : Good W E d2 (fun x => need x ∨ x ∈ joinVars d1 d2) false) :
    Good W E (.join d1 d2) need dup := by
  obtain ⟨hsame, hf1, hf2⟩ := hf
  intro goal p s r s' hdup hsub hneed h
  have hneed1 : ∀ x ∈ d1.bounded, need x → x ∈ leaves goal := fun x hx => hneed x (List.mem_append.mpr (Or.inl hx))
  have hneed2 : ∀ x ∈ d2.bounded, need x → x ∈ leaves goal := fun x hx => hneed x (List.mem_append.mpr (Or.inr hx))
  simp only [toRam] at h
  by_cases hj : (joinVars d1 d2).isEmpty = true
  · rw [if_pos hj] at h
    have hj' : joinVars d1 d2 = [] := by simpa using hj
    simp only [Option.bind_eq_some_iff, Option.map_eq_some_iff] at h
    obtain ⟨⟨r1, s1⟩, hr1, ⟨r2, s2⟩, hr2, e, he, h⟩ := h
    obtain ⟨hn1, hm1⟩ := subTuple_spec hO (goal := goal) hf1
    obtain ⟨hn2, hm2⟩ := subTuple_spec hO (goal := goal) hf2
    obtain ⟨hle1, hc1⟩ := ih1 _ _ s r1 s1 (fun _ => hn1) (fun x hx => ((hm1 x).mp hx).1) (by
      rintro x hx (hx' | hx')
      · exact (hm1 x).mpr ⟨hx, hneed1 x hx hx'⟩
      · rw [hj'] at hx'; cases hx') hr1
    obtain ⟨hle2, hc2⟩ := ih2 _ _ s1 r2 s2 (fun _ => hn2) (fun x hx => ((hm2 x).mp hx).1) (by
      rintro x hx (hx' | hx')
      · exact (hm2 x).mpr ⟨hx, hneed2 x hx hx'⟩
      · rw [hj'] at hx'; cases hx') hr2
    have e1 := congrArg Prod.fst h
    have e2 := congrArg Prod.snd h
    simp only at e1 e2
    subst e1 e2
    refine ⟨(hle1.trans hle2).trans (process_le _ _ _), fun hs => Corr.process (Corr.project ?_ he) hs⟩
    have hs2 := hs.mono (process_le _ _ _)
    exact product_corr hf1 hf2 hj' (fun x hx => ((hm1 x).mp hx).1) (fun x hx => ((hm2 x).mp hx).1) (hc1 (hs2.mono hle2)) (hc2 hs2)
  · rw [if_neg hj] at h
    by_cases hss : sameSet d1.bounded d2.bounded = true
    · rw [if_pos hss] at h
      have hss' := sameSet_iff.mp hss
      have hd : d1.directAtom.isSome ∨ d2.directAtom.isSome := by
        rcases hsame hss with h | h
        · rw [h] at hj; simp at hj
        · exact h
      obtain ⟨hn, hm⟩ := commonGoal_spec hO (goal := goal) hf1 hf2 hss' hd
      simp only [Option.bind_eq_some_iff] at h
      obtain ⟨⟨r1, s1⟩, hr1, ⟨r2, s2⟩, hr2, h⟩ := h
      obtain ⟨hle1, hc1⟩ := ih1 _ _ s r1 s1 (fun _ => hn) (fun x hx => (hm x).mp hx) (fun x hx _ => (hm x).mpr hx) hr1
      obtain ⟨hle2, hc2⟩ := ih2 _ _ s1 r2 s2 (fun _ => hn) (fun x hx => (hss' x).mp ((hm x).mp hx))
        (fun x hx _ => (hm x).mpr ((hss' x).mpr hx)) hr2
      have base : Solves W s2 → Corr W (.bin .intersect r1 r2) (Sat W (.join d1 d2)) (commonGoal E goal d1 d2) := fun hs2 =>
        intersect_corr hf2 hn (fun x hx => (hm x).mpr ((hss' x).mpr hx)) (hc1 (hs2.mono hle2)) (hc2 hs2)
      split at h
      · rename_i hg
        simp only [Option.some.injEq, Prod.mk.injEq] at h
        obtain ⟨rfl, rfl⟩ := h
        refine ⟨hle1.trans hle2, fun hs => ?_⟩
        have := base hs
        rwa [hg] at this
      · simp only [Option.map_eq_some_iff] at h
        obtain ⟨e, he, h⟩ := h
        have e1 := congrArg Prod.fst h
        have e2 := congrArg Prod.snd h
        simp only at e1 e2
        subst e1 e2
        exact ⟨(hle1.trans hle2).trans (process_le _ _ _), fun hs =>
          Corr.process (Corr.project (base (hs.mono (process_le _ _ _))) he) hs⟩
    · rw [if_neg hss] at h
      simp only [Option.bind_eq_some_iff, Option.map_eq_some_iff] at h
      obtain ⟨⟨r1, s1⟩, hr1, ⟨r2, s2⟩, hr2, e, he, h⟩ := h
      obtain ⟨hnk, hk⟩ := key_spec hO (d1 := d1) (d2 := d2)
      obtain ⟨hn1, hm1⟩ := joinGoal_spec hO (joint := joinVars d1 d2) (goal := goal) (d := d1)
      obtain ⟨hn2, hm2⟩ := joinGoal_spec hO (joint := joinVars d1 d2) (goal := goal) (d := d2)
      have hp1 := nodup_pair hnk hn1 (fun x hx hx' => ((hm1 x).mp hx').2.2 ((hk x).mp hx))
      have hp2 := nodup_pair hnk hn2 (fun x hx hx' => ((hm2 x).mp hx').2.2 ((hk x).mp hx))
      obtain ⟨hle1, hc1⟩ := ih1 _ _ s r1 s1 (fun _ => hp1) (by
        intro x hx
        rcases mem_pair.mp hx with hx | hx
        · exact (mem_joinVars.mp ((hk x).mp hx)).1
        · exact ((hm1 x).mp hx).2.1) (by
        rintro x hx hx'
        by_cases hxj : x ∈ joinVars d1 d2
        · exact mem_pair.mpr (Or.inl ((hk x).mpr hxj))
        · rcases hx' with hx' | hx'
          · exact mem_pair.mpr (Or.inr ((hm1 x).mpr ⟨hneed1 x hx hx', hx, hxj⟩))
          · exact absurd hx' hxj) hr1
      obtain ⟨hle2, hc2⟩ := ih2 _ _ s1 r2 s2 (fun _ => hp2) (by
        intro x hx
        rcases mem_pair.mp hx with hx | hx
        · exact (mem_joinVars.mp ((hk x).mp hx)).2
        · exact ((hm2 x).mp hx).2.1) (by
        rintro x hx hx'
        by_cases hxj : x ∈ joinVars d1 d2
        · exact mem_pair.mpr (Or.inl ((hk x).mpr hxj))
        · rcases hx' with hx' | hx'
          · exact mem_pair.mpr (Or.inr ((hm2 x).mpr ⟨hneed2 x hx hx', hx, hxj⟩))
          · exact absurd hx' hxj) hr2
      have base : Solves W s2 → Corr W (.bin .join r1 r2) (Sat W (.join d1 d2)) _ := fun hs2 =>
        join_corr hf1 hf2 hp1 hp2 hk (fun x hx => ((hm1 x).mp hx).2.1) (fun x hx => ((hm2 x).mp hx).2.1) (hc1 (hs2.mono hle2)) (hc2 hs2)
      split at h
      · rename_i rel hrel
        have hrel := indexedVec_eq hrel
        simp only at hrel
        subst hrel
        have e1 := congrArg Prod.fst h
        have e2 := congrArg Prod.snd h
        simp only at e1 e2
        subst e1 e2
        refine ⟨(hle1.trans hle2).trans (process_le _ _ _), fun hs => Corr.process (Corr.project ?_ he) hs⟩
        refine (base (hs.mono (process_le _ _ _))).congr (fun t => ⟨?_, ?_⟩)
        · rintro ⟨k, a, b, h1, h2, rfl⟩
          exact ⟨k, a, b, h1, ⟨_, h2, rfl, rfl⟩, rfl⟩
        · rintro ⟨k, a, b, h1, ⟨y, h2, hy0, hy1⟩, rfl⟩
          refine ⟨k, a, b, h1, ?_, rfl⟩
          obtain ⟨τ, _, hr'⟩ := (hc2 (hs.mono (process_le _ _ _))).sound _ h2
          have ey := hr'.exact hp2
          simp only [evalV, evalVs] at ey
          subst ey
          rw [← Option.some.inj hy0, ← Option.some.inj hy1]
          exact h2
      · have e1 := congrArg Prod.fst h
        have e2 := congrArg Prod.snd h
        simp only at e1 e2
        subst e1 e2
        exact ⟨(hle1.trans hle2).trans (process_le _ _ _), fun hs => Corr.process (Corr.project (base (hs.mono (process_le _ _ _))) he) hs⟩

theorem antijoin_good {W : World F} {E : Env F} (hO : E.Orders) {d1 d2 : Plan F} {need dup} (hf : Fits W E (.antijoin d1 d2) need dup)
    (ih1 : Good W E d1 (fun x => need x ∨ x ∈ joinVars d1 d2) false) (ih2 : Good W E d2 (fun x => x ∈ joinVars d1 d2) false) :
    Good W E (.antijoin d1 d2) need dup := by
  obtain ⟨hsame, hf1, hf2⟩ := hf
  intro goal p s r s' hdup hsub hneed h
  simp only [toRam] at h
  by_cases hss : sameSet d1.bounded d2.bounded = true
  · rw [if_pos hss] at h
    have hss' := sameSet_iff.mp hss
    obtain ⟨hn, hm⟩ := commonGoal_spec hO (goal := goal) hf1 hf2 hss' (hsame hss)
    simp only [Option.bind_eq_some_iff] at h
    obtain ⟨⟨r1, s1⟩, hr1, ⟨r2, s2⟩, hr2, h⟩ := h
    obtain ⟨hle1, hc1⟩ := ih1 _ _ s r1 s1 (fun _ => hn) (fun x hx => (hm x).mp hx) (fun x hx _ => (hm x).mpr hx) hr1
    obtain ⟨hle2, hc2⟩ := ih2 _ _ s1 r2 s2 (fun _ => hn) (fun x hx => (hss' x).mp ((hm x).mp hx))
      (fun x hx _ => (hm x).mpr ((hss' x).mpr hx)) hr2
    have base : Solves W s2 → Corr W (.bin .difference r1 r2) (Sat W (.antijoin d1 d2)) (commonGoal E goal d1 d2) := fun hs2 =>
      difference_corr (E := E) hn (fun x => (hm x).trans ⟨fun hx => mem_joinVars.mpr ⟨hx, (hss' x).mp hx⟩, fun hx => (mem_joinVars.mp hx).1⟩)
        (hc1 (hs2.mono hle2)) (hc2 hs2)
    split at h
    · rename_i hg
      simp only [Option.some.injEq, Prod.mk.injEq] at h
      obtain ⟨rfl, rfl⟩ := h
      refine ⟨hle1.trans hle2, fun hs => ?_⟩
      have := base hs
      rwa [hg] at this
    · simp only [Option.map_eq_some_iff] at h
      obtain ⟨e, he, h⟩ := h
      have e1 := congrArg Prod.fst h
      have e2 := congrArg Prod.snd h
      simp only at e1 e2
      subst e1 e2
      exact ⟨(hle1.trans hle2).trans (process_le _ _ _), fun hs =>
        Corr.process (Corr.project (base (hs.mono (process_le _ _ _))) he) hs⟩
  · rw [if_neg hss] at h
    simp only [Option.bind_eq_some_iff, Option.map_eq_some_iff] at h
    obtain ⟨⟨r1, s1⟩, hr1, ⟨r2, s2⟩, hr2, e, he, h⟩ := h
    obtain ⟨hnk, hk⟩ := key_spec hO (d1 := d1) (d2 := d2)
    obtain ⟨hn1, hm1⟩ := joinGoal_spec hO (joint := joinVars d1 d2) (goal := goal) (d := d1)
    have hp1 := nodup_pair hnk hn1 (fun x hx hx' => ((hm1 x).mp hx').2.2 ((hk x).mp hx))
    obtain ⟨hle1, hc1⟩ := ih1 _ _ s r1 s1 (fun _ => hp1) (by
      intro x hx
      rcases mem_pair.mp hx with hx | hx
      · exact (mem_joinVars.mp ((hk x).mp hx)).1
      · exact ((hm1 x).mp hx).2.1) (by
      rintro x hx hx'
      by_cases hxj : x ∈ joinVars d1 d2
      · exact mem_pair.mpr (Or.inl ((hk x).mpr hxj))
      · rcases hx' with hx' | hx'
        · exact mem_pair.mpr (Or.inr ((hm1 x).mpr ⟨hneed x hx hx', hx, hxj⟩))
        · exact absurd hx' hxj) hr1
    obtain ⟨hle2, hc2⟩ := ih2 _ _ s1 r2 s2 (fun _ => hnk) (fun x hx => (mem_joinVars.mp ((hk x).mp hx)).2)
      (fun x _ hx' => (hk x).mpr hx') hr2
    have e1 := congrArg Prod.fst h
    have e2 := congrArg Prod.snd h
    simp only at e1 e2
    subst e1 e2
    refine ⟨(hle1.trans hle2).trans (process_le _ _ _), fun hs => Corr.process (Corr.project ?_ he) hs⟩
    have hs2 := hs.mono (process_le _ _ _)
    exact antijoin_corr (E := E) hp1 hnk hk (hc1 (hs2.mono hle2)) (hc2 hs2)

/-- The dataflow made for a plan computes what the plan means. -/
theorem toRam_good {W : World F} {E : Env F} (hX : W.X.ExactFloats) (hO : E.Orders) :
    ∀ {d : Plan F} {need dup}, Fits W E d need dup → Good W E d need dup
  | .unit, _, _, _ => unit_good
  | .reduce _, _, _, hf => reduce_good hf
  | .ground _, _, _, hf => fun _ _ _ _ _ hdup hsub _ h => groundFlow_corr hX hf hdup hsub h
  | .project _ _ _, _, _, hf => project_good hO hf (toRam_good hX hO hf.2.2.2.2)
  | .filter _ _ _, _, _, hf => filter_good hO hf (toRam_good hX hO hf.2.2.2)
  | .join _ _, _, _, hf => join_good hO hf (toRam_good hX hO hf.2.1) (toRam_good hX hO hf.2.2)
  | .antijoin _ _, _, _, hf => antijoin_good hO hf (toRam_good hX hO hf.2.1) (toRam_good hX hO hf.2.2)
  | .fpGround _ _, _, _, hf => fpGround_good hf
  | .fpConstraint _ _ _, _, _, hf => fpConstraint_good hO hf (toRam_good hX hO hf.2.2)
  | .fpJoin _ _ _, _, _, hf => fpJoin_good hO hf (toRam_good hX hO hf.2.2.2.2)

end Scallop.Plan
