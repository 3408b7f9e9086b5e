import Verif.Proof.PlanRam

/-!
# Heads of rules
-/

namespace Scallop.Plan

open Scallop.Back Scallop.Ram

variable {F : Type}

theorem vars_only {a : Atom String F} (h : a.args.any (fun t => t.const?.isSome) = false) : a.args = (atomVars a).map .var := by
  have h : ∀ t ∈ a.args, t.const? = none := by
    intro t ht
    have := List.any_eq_false.mp h t ht
    simpa using this
  unfold atomVars
  generalize a.args = as at h
  induction as with
  | nil => rfl
  | cons t as ih =>
    cases t with
    | const c => simpa [Term.const?] using h (.const c) (by simp)
    | var x =>
      rw [List.filterMap_cons]
      simp only [Term.var?, List.map_cons]
      rw [← ih (fun t ht => h t (List.mem_cons_of_mem _ ht))]

theorem mem_dedup {t : VTuple} {x : String} : x ∈ leaves (dedupTuple t) ↔ x ∈ leaves t := by
  rw [dedupTuple, mem_fromVars, mem_vars]

theorem atomHead_corr {W : World F} {E : Env F} (hX : W.X.ExactFloats) (hO : E.Orders) {a : Atom String F} {d : Plan F} {inPlace s f s'}
    (hshape : E.shape a.predicate = some .normal) (hfit : Fits W E d (fun x => x ∈ atomVars a) false) (hsafe : ∀ x ∈ atomVars a, x ∈ d.bounded)
    (h : atomHeadFlow E a d inPlace s = some (f, s')) (hs : Solves W s') (t : Tup (Val F)) :
    Den W f t ↔ ∃ σ, Sat W d σ ∧ t = flat (a.args.map (Term.val σ)) := by
  simp only [atomHeadFlow, headTuple, hshape, Option.bind_some, Option.bind_eq_some_iff, Option.map_eq_some_iff] at h
  obtain ⟨⟨r, s1⟩, hr, f', hf', h⟩ := h
  have e1 := congrArg Prod.fst h
  have e2 := congrArg Prod.snd h
  simp only at e1 e2
  subst e1 e2
  obtain ⟨_, hc⟩ := toRam_good hX hO hfit (dedupTuple (.tup ((atomVars a).map .val))) _ s r s1 (fun _ => nodup_fromVars _ _)
    (fun x hx => hsafe x (by rwa [mem_dedup, leaves_vals] at hx)) (fun x _ hx => by rwa [mem_dedup, leaves_vals]) hr
  have hc := hc hs
  have hm : Den W (if E.magic a.predicate then .un .overwriteOne f' else f') t ↔ Den W f' t := by
    split
    · exact Iff.rfl
    · exact Iff.rfl
  rw [hm]
  split at hf'
  · simp only [headProjection, Option.map_eq_some_iff] at hf'
    obtain ⟨e, ⟨es, hes, rfl⟩, rfl⟩ := hf'
    have hev : ∀ (σ : Asg F) u, Rep (dedupTuple (.tup ((atomVars a).map .val))) σ u →
        (Expr.tuple es).eval W.X u = .ok (flat (a.args.map (Term.val σ))) := by
      intro σ u hru
      rw [Expr.eval.eq_1, evalList_termExprs hru hes]
      rfl
    constructor
    · rintro ⟨u, hu, he⟩
      obtain ⟨σ, hσ, hru⟩ := hc.sound u hu
      rw [hev σ u hru] at he
      cases he
      exact ⟨σ, hσ, rfl⟩
    · rintro ⟨σ, hσ, rfl⟩
      obtain ⟨u, hu, hru⟩ := hc.complete σ hσ
      exact ⟨u, hu, hev σ u hru⟩
  · rename_i hno
    have hargs := vars_only (by simpa using hno)
    have hval : ∀ σ : Asg F, evalV σ (.tup ((atomVars a).map .val)) = flat (a.args.map (Term.val σ)) := by
      intro σ
      rw [evalV_vals]
      conv_rhs => rw [hargs]
      rw [map_val_vars]
    split at hf'
    · simp only [Option.map_eq_some_iff] at hf'
      obtain ⟨e, he, rfl⟩ := hf'
      have hp := hc.project he
      constructor
      · rintro ⟨u, hu, hev⟩
        obtain ⟨σ, hσ, hru⟩ := hc.sound u hu
        rw [eval_projection hru he] at hev
        cases hev
        exact ⟨σ, hσ, hval σ⟩
      · rintro ⟨σ, hσ, rfl⟩
        obtain ⟨u, hu, hru⟩ := hc.complete σ hσ
        exact ⟨u, hu, by rw [eval_projection hru he, hval]⟩
    · rename_i heq
      simp only [Option.some.injEq] at hf'
      subst hf'
      simp only [ne_eq, not_not] at heq
      have hn : (leaves (.tup ((atomVars a).map .val))).Nodup := by rw [heq]; exact nodup_fromVars _ _
      rw [← heq] at hc
      constructor
      · intro hd
        obtain ⟨σ, hσ, hru⟩ := hc.sound t hd
        exact ⟨σ, hσ, by rw [hru.exact hn, hval]⟩
      · rintro ⟨σ, hσ, rfl⟩
        obtain ⟨u, hu, hru⟩ := hc.complete σ hσ
        rw [hru.exact hn, hval] at hu
        exact hu

/-- Heads of the predicates made for aggregations: the tuples are made of the grouping part and the rest. -/
theorem aggHead_corr {W : World F} {E : Env F} (hX : W.X.ExactFloats) (hO : E.Orders) {a : Atom String F} {d : Plan F} {inPlace s f s' g}
    (hhead : headTuple E a = some (g, false)) (hfit : Fits W E d (fun x => x ∈ leaves g) false) (hsafe : ∀ x ∈ leaves g, x ∈ d.bounded)
    (h : atomHeadFlow E a d inPlace s = some (f, s')) (hs : Solves W s') (t : Tup (Val F)) :
    Den W f t ↔ ∃ σ, Sat W d σ ∧ t = evalV σ g := by
  simp only [atomHeadFlow, hhead, Option.bind_some, Option.bind_eq_some_iff, Option.map_eq_some_iff] at h
  obtain ⟨⟨r, s1⟩, hr, f', hf', h⟩ := h
  have e1 := congrArg Prod.fst h
  have e2 := congrArg Prod.snd h
  simp only at e1 e2
  subst e1 e2
  obtain ⟨_, hc⟩ := toRam_good hX hO hfit (dedupTuple g) _ s r s1 (fun _ => nodup_fromVars _ _)
    (fun x hx => hsafe x (mem_dedup.mp hx)) (fun x _ hx => mem_dedup.mpr hx) hr
  have hc := hc hs
  have hm : Den W (if E.magic a.predicate then .un .overwriteOne f' else f') t ↔ Den W f' t := by
    split
    · exact Iff.rfl
    · exact Iff.rfl
  rw [hm]
  simp only [Bool.false_eq_true, if_false] at hf'
  split at hf'
  · simp only [Option.map_eq_some_iff] at hf'
    obtain ⟨e, he, rfl⟩ := hf'
    constructor
    · rintro ⟨u, hu, hev⟩
      obtain ⟨σ, hσ, hru⟩ := hc.sound u hu
      rw [eval_projection hru he] at hev
      cases hev
      exact ⟨σ, hσ, rfl⟩
    · rintro ⟨σ, hσ, rfl⟩
      obtain ⟨u, hu, hru⟩ := hc.complete σ hσ
      exact ⟨u, hu, by rw [eval_projection hru he]⟩
  · rename_i heq
    simp only [Option.some.injEq] at hf'
    subst hf'
    simp only [ne_eq, not_not] at heq
    have hn : (leaves g).Nodup := by rw [heq]; exact nodup_fromVars _ _
    rw [← heq] at hc
    constructor
    · intro hd
      obtain ⟨σ, hσ, hru⟩ := hc.sound t hd
      exact ⟨σ, hσ, hru.exact hn⟩
    · rintro ⟨σ, hσ, rfl⟩
      obtain ⟨u, hu, hru⟩ := hc.complete σ hσ
      rw [hru.exact hn] at hu
      exact hu

/-! ## Alternatives -/

theorem disjProjection_eval {X : Ext F} {σ : Asg F} : ∀ {args args' : List (Term String F)} {v c es} {vs cs : List (Val F)},
    disjProjection v c args = some es → args'.map Term.var? = args.map Term.var? →
    vs.drop v = (args.filterMap Term.var?).map σ → (∃ k, cs.drop c = (constsFrom k args').map Prod.snd) →
    Expr.evalList X es (.tup [flat vs, flat cs]) = .ok ((args'.map (Term.val σ)).map .val)
  | [], args', v, c, es, vs, cs, h, hp, _, _ => by
    simp only [disjProjection, Option.some.injEq] at h
    subst h
    have : args' = [] := by simpa using hp
    subst this
    rw [Expr.evalList.eq_1]
    rfl
  | .var x :: args, args', v, c, es, vs, cs, h, hp, hv, ⟨k, hc⟩ => by
    simp only [disjProjection, Option.bind_eq_some_iff, Option.map_eq_some_iff] at h
    obtain ⟨e, he, es', hes, rfl⟩ := h
    cases args' with
    | nil => simp at hp
    | cons b args' =>
      cases b with
      | const _ => simp [Term.var?] at hp
      | var y =>
        simp only [List.map_cons, Term.var?, List.cons.injEq, Option.some.injEq] at hp
        obtain ⟨rfl, hp⟩ := hp
        rw [List.filterMap_cons] at hv
        simp only [Term.var?, List.map_cons] at hv
        have h0 : vs[v]? = some (σ y) := by
          have := congrArg (fun l => l[0]?) hv
          simpa using this
        have hv' : vs.drop (v + 1) = (args.filterMap Term.var?).map σ := by
          have := congrArg List.tail hv
          simpa using this
        rw [mkAccess_eq he, Expr.evalList.eq_2, eval_access (u := .val (σ y)) (by simp [Tup.atPath, Tup.at?, flat, h0]), Outcome.bind,
          disjProjection_eval hes hp hv' ⟨k + 1, by simpa [constsFrom] using hc⟩]
        rfl
  | .const d :: args, args', v, c, es, vs, cs, h, hp, hv, ⟨k, hc⟩ => by
    simp only [disjProjection, Option.bind_eq_some_iff, Option.map_eq_some_iff] at h
    obtain ⟨e, he, es', hes, rfl⟩ := h
    cases args' with
    | nil => simp at hp
    | cons b args' =>
      cases b with
      | var _ => simp [Term.var?] at hp
      | const d' =>
        simp only [List.map_cons, Term.var?, List.cons.injEq, true_and] at hp
        rw [List.filterMap_cons] at hv
        simp only [Term.var?] at hv
        simp only [constsFrom, List.map_cons] at hc
        have h0 : cs[c]? = some d' := by
          have := congrArg (fun l => l[0]?) hc
          simpa using this
        have hc' : cs.drop (c + 1) = (constsFrom (k + 1) args').map Prod.snd := by
          have := congrArg List.tail hc
          simpa using this
        rw [mkAccess_eq he, Expr.evalList.eq_2, eval_access (u := .val d') (by simp [Tup.atPath, Tup.at?, flat, h0]), Outcome.bind,
          disjProjection_eval hes hp hv ⟨k + 1, hc'⟩]
        rfl

theorem disjHead_corr {W : World F} {E : Env F} (hX : W.X.ExactFloats) (hO : E.Orders) {a : Atom String F} {as : List (Atom String F)}
    {d : Plan F} {inPlace s f s'} (hn : (atomVars a).Nodup) (hlen : ∀ b ∈ as, b.args.length = a.args.length)
    (hfit : Fits W E d (fun x => x ∈ atomVars a) false) (hsafe : ∀ x ∈ atomVars a, x ∈ d.bounded)
    (h : disjHeadFlow E (a :: as) d inPlace s = some (f, s')) (hs : Solves W s') (t : Tup (Val F)) :
    Den W f t ↔ ∃ σ, Sat W d σ ∧ ∃ b ∈ a :: as, t = flat (b.args.map (Term.val σ)) := by
  simp only [disjHeadFlow] at h
  split at h
  · cases h
  · rename_i hpat
    simp only [multiplePatterns, Bool.not_eq_true, Bool.not_eq_false', List.all_eq_true, decide_eq_true_eq] at hpat
    have hpat : ∀ b ∈ a :: as, pattern b = pattern a := by
      intro b hb
      rcases List.mem_cons.mp hb with rfl | hb
      · rfl
      · exact (hpat b hb).eq_of_length (by rw [pattern, pattern, List.length_map, List.length_map, hlen b hb])
    simp only [Option.bind_eq_some_iff, Option.map_eq_some_iff] at h
    obtain ⟨⟨r, s1⟩, hr, es, hes, h⟩ := h
    have e1 := congrArg Prod.fst h
    have e2 := congrArg Prod.snd h
    simp only at e1 e2
    subst e1 e2
    obtain ⟨_, hc⟩ := toRam_good hX hO hfit _ _ s r s1 (fun _ => nodup_fromVars _ _)
      (fun x hx => hsafe x (mem_fromVars.mp hx)) (fun x _ hx => mem_fromVars.mpr hx) hr
    have hc := hc hs
    rw [fromVars_false, uniq_of_nodup hn] at hc
    have hev : ∀ σ : Asg F, ∀ b ∈ a :: as, (Expr.tuple es).eval W.X
        (.tup [flat ((atomVars a).map σ), .tup ((constsFrom 0 b.args).map (fun c => .val c.2))]) = .ok (flat (b.args.map (Term.val σ))) := by
      intro σ b hb
      have h1 : (.tup ((constsFrom 0 b.args).map (fun c => .val c.2)) : Tup (Val F)) = flat ((constsFrom 0 b.args).map Prod.snd) := by
        rw [flat, List.map_map]; rfl
      rw [h1, Expr.eval.eq_1, disjProjection_eval (σ := σ) (args' := b.args) hes (hpat b hb) (by rw [List.drop_zero]; rfl) ⟨0, List.drop_zero⟩]
      rfl
    have hrep : ∀ (σ : Asg F) u, Rep (.tup ((atomVars a).map .val)) σ u → u = flat ((atomVars a).map σ) := by
      intro σ u hru
      rw [hru.exact (by rw [leaves_vals]; exact hn), evalV_vals]
    constructor
    · rintro ⟨w, ⟨u, c, hu, hcm, rfl⟩, hev'⟩
      obtain ⟨σ, hσ, hru⟩ := hc.sound u hu
      obtain ⟨b, hb, rfl⟩ := List.mem_map.mp hcm
      rw [hrep σ u hru, hev σ b hb] at hev'
      cases hev'
      exact ⟨σ, hσ, b, hb, rfl⟩
    · rintro ⟨σ, hσ, b, hb, rfl⟩
      obtain ⟨u, hu, hru⟩ := hc.complete σ hσ
      rw [hrep σ u hru] at hu
      exact ⟨_, ⟨_, _, hu, List.mem_map.mpr ⟨b, hb, rfl⟩, rfl⟩, hev σ b hb⟩

end Scallop.Plan
