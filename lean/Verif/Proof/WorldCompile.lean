import Verif.Proof.WorldPlan
import Verif.Proof.WorldExec
import Verif.Proof.EndToEnd
import Verif.Proof.StrataMain
import Verif.Spec.WorldProgram

/-!
# Compiled programs meet the conditions of their execution in possible worlds
-/

namespace Scallop.Plan

open Scallop.Back Scallop.Ram Scallop.Exec

variable {F T : Type}

/-! ## The plans of rules -/

theorem Built.covered {c : Ctx F} (hred : c.reduces = []) {R as cs d} (h : Built c R as cs d) : CoveredPlan d := by
  induction h with
  | unit _ _ => trivial
  | ground _ _ => trivial
  | reduces _ e => rw [hred] at e; cases e
  | join _ ih => exact ⟨ih, trivial⟩
  | project _ _ ih => exact ih
  | filter _ _ ih => exact ih

theorem antis_covered : ∀ (ns : List (Atom String F)) (d : Plan F), CoveredPlan d → (∀ a ∈ ns, ∀ x ∈ atomVars a, x ∈ d.bounded) →
    CoveredPlan (ns.foldl (fun d a => Plan.antijoin d (.ground a)) d)
  | [], _, hd, _ => hd
  | a :: ns, d, hd, h => by
    rw [List.foldl_cons]
    exact antis_covered ns _ ⟨hd, a, rfl, h a (by simp)⟩ (fun b hb => h b (by simp [hb]))

theorem queryPlan_covered {W : World F} {E : Plan.Env F} {S : Search} (hS : S.Lawful) {nb : String → Option Nat} {body : List (Lit String F Reduce)} {head}
    (ok : RuleOk W E nb body head) (hred : reducesOf body = []) {c d} (hc : Ctx.fromRule nb body = some c) (hd : queryPlan S c = some d) : CoveredPlan d := by
  obtain ⟨c', e, hc'⟩ := fromRule_spec ok.nofp ok.noff
  rw [hc] at e
  cases e
  obtain ⟨order, e1, hperm⟩ := atomOrder_spec hS (n := c.pos.length) (beam := 5) (by decide)
  obtain ⟨p1, d1, rest, e2, p2, d2, e3, hb, hx⟩ := built_of_order hc'.fps hperm
  simp only [queryPlan, e1, Option.bind_some, queryPlanOf, e2, e3, Option.map_some, Option.some.injEq] at hd
  subst hd
  have hap : ∀ d, CoveredPlan d → CoveredPlan (applyNew c d) := by
    intro d hd
    rw [applyNew]
    split
    · exact hd
    · exact hd
  refine hap _ (antis_covered _ _ (hb.covered (by rw [hc'.reduces, hred])) ?_)
  intro a ha x hx'
  rw [hc'.neg] at ha
  exact hb.boundAll hc' ok hx (ok.safeNeg a ha x hx')

/-! ## Rules -/

section
variable {W : World F} {E : Plan.Env F} {arity : String → Nat}

theorem headTuple_leaves {a : Atom String F} {g b} (hh : HeadGood E arity (.atom a)) (hg : headTuple E a = some (g, b)) (x : String) :
    x ∈ leaves g ↔ x ∈ atomVars a := by
  rcases hh with ⟨hn, _⟩ | ⟨hn, hargs, hnd⟩
  · simp only [headTuple, hn, Option.bind_some, Option.some.injEq, Prod.mk.injEq] at hg
    rw [← hg.1, leaves_vals]
  · obtain ⟨sh, hsh⟩ : ∃ sh, E.shape a.predicate = some sh := by
      simp only [headTuple, Option.bind_eq_some_iff] at hg
      exact ⟨hg.choose, hg.choose_spec.1⟩
    exact (headTuple_arranged hsh (fun e => hn (by rw [hsh, e])) hargs hnd hg).2.1 x

theorem atomHead_le (hX : W.X.ExactFloats) (hO : E.Orders) {a : Atom String F} {d : Plan F} {s : St F} {r} {inPlace : Bool}
    (hh : HeadGood E arity (.atom a)) (hm : E.magic a.predicate = false) (hfit : Fits W E d (fun x => x ∈ atomVars a) false)
    (hsafe : ∀ x ∈ atomVars a, x ∈ d.bounded) (h : atomHeadFlow E a d inPlace s = some r) : St.Le s r.2 := by
  simp only [atomHeadFlow, hm, Option.bind_eq_some_iff, Option.map_eq_some_iff] at h
  obtain ⟨⟨g, b⟩, hg, ⟨r1, s1⟩, hr, f', hf', rfl⟩ := h
  have hl := headTuple_leaves hh hg
  exact (toRam_good hX hO hfit (dedupTuple g) _ s r1 s1 (fun _ => nodup_fromVars _ _) (fun x hx => hsafe x ((hl x).mp (mem_dedup.mp hx)))
    (fun x _ hx => mem_dedup.mpr ((hl x).mpr hx)) hr).1

theorem atomHead_tame (hX : W.X.ExactFloats) (hO : E.Orders) (hE : ∀ r, E.indexed r = false) {a : Atom String F} {d : Plan F} {s : St F} {r}
    (hh : HeadGood E arity (.atom a)) (hm : E.magic a.predicate = false) (hfit : Fits W E d (fun x => x ∈ atomVars a) false) (hcov : CoveredPlan d)
    (hsafe : ∀ x ∈ atomVars a, x ∈ d.bounded) (hs : s.Tame W) (h : atomHeadFlow E a d false s = some r) :
    Tame W r.1 ∧ r.2.Tame W ∧ (Supported W r.2 → ∀ t, Den W (positive r.1) t → Layout E arity a.predicate t) := by
  simp only [atomHeadFlow, hm, Option.bind_eq_some_iff, Option.map_eq_some_iff] at h
  obtain ⟨⟨g, b⟩, hg, ⟨r1, s1⟩, hr, f', hf', rfl⟩ := h
  have hl := headTuple_leaves hh hg
  have q1 : ∀ x ∈ leaves (dedupTuple g), x ∈ d.bounded := fun x hx => hsafe x ((hl x).mp (mem_dedup.mp hx))
  have q2 : ∀ x ∈ d.bounded, x ∈ atomVars a → x ∈ leaves (dedupTuple g) := fun x _ hx => mem_dedup.mpr ((hl x).mpr hx)
  have m := toRam_tame hX hO hE hfit hcov (dedupTuple g) _ s r1 s1 rfl (fun _ => nodup_fromVars _ _) q1 q2 hs hr
  simp only [Bool.false_eq_true, if_false] at *
  have htame : Tame W f' := by
    split at hf'
    · simp only [Option.map_eq_some_iff] at hf'
      obtain ⟨e, _, rfl⟩ := hf'
      exact ⟨m.tame.tags, m.tame.sharp⟩
    · split at hf'
      · simp only [Option.map_eq_some_iff] at hf'
        obtain ⟨e, _, rfl⟩ := hf'
        exact ⟨m.tame.tags, m.tame.sharp⟩
      · simp only [Option.some.injEq] at hf'
        rw [← hf']
        exact m.tame
  refine ⟨htame, m.st, fun hsup t ht hnorm => ?_⟩
  have hsh := m.shaped hsup
  rcases hh with ⟨hn, hlen⟩ | ⟨hn, _⟩
  · simp only [headTuple, hn, Option.bind_some, Option.some.injEq, Prod.mk.injEq] at hg
    obtain ⟨rfl, rfl⟩ := hg
    have hout : ∀ σ : Asg F, ∃ vs : List (Val F), vs.length = arity a.predicate ∧ flat (a.args.map (Term.val σ)) = flat vs :=
      fun σ => ⟨_, by rw [List.length_map, hlen], rfl⟩
    split at hf'
    · simp only [headProjection, Option.map_eq_some_iff] at hf'
      obtain ⟨e, ⟨es, hes, rfl⟩, rfl⟩ := hf'
      obtain ⟨u, hu, he⟩ := ht
      obtain ⟨σ, hru⟩ := hsh u hu
      rw [Expr.eval.eq_1, evalList_termExprs hru hes] at he
      obtain ⟨vs, h1, h2⟩ := hout σ
      refine ⟨vs, h1, ?_⟩
      rw [← h2]
      exact (Outcome.ok.inj he).symm
    · rename_i hno
      have hargs := vars_only (by simpa using hno)
      have hval : ∀ σ : Asg F, evalV σ (.tup ((atomVars a).map .val)) = flat (a.args.map (Term.val σ)) := by
        intro σ
        rw [evalV_vals]
        conv_rhs => rw [hargs]
        rw [map_val_vars]
      split at hf'
      · simp only [Option.map_eq_some_iff] at hf'
        obtain ⟨e, he, rfl⟩ := hf'
        obtain ⟨u, hu, hev⟩ := ht
        obtain ⟨σ, hru⟩ := hsh u hu
        rw [eval_projection hru he] at hev
        cases hev
        rw [hval]
        exact hout σ
      · rename_i heq
        simp only [Option.some.injEq] at hf'
        subst hf'
        simp only [ne_eq, not_not] at heq
        have hn' : (leaves (.tup ((atomVars a).map .val))).Nodup := by rw [heq]; exact nodup_fromVars _ _
        obtain ⟨σ, hru⟩ := hsh t ht
        rw [← heq] at hru
        rw [hru.exact hn', hval]
        exact hout σ
  · exact absurd hnorm hn

/-- What is needed of a rule. -/
structure RuleTame (W : World F) (E : Plan.Env F) (arity : String → Nat) (q : SRule F) : Prop where
  ok : RuleOk W E E.numBounded q.body (headVars q.head)
  head : HeadGood E arity q.head
  atom : ∃ a, q.head = .atom a ∧ E.magic a.predicate = false
  temps : q.inPlace = false
  aggs : reducesOf q.body = []

theorem ruleFlow_tame (hX : W.X.ExactFloats) (hO : E.Orders) (hE : ∀ r, E.indexed r = false) {S : Search} (hS : S.Lawful) {q : SRule F}
    (hq : RuleTame W E arity q) {s : St F} {r} (hs : s.Tame W) (h : ruleFlow E S q.head q.body q.inPlace s = some r) :
    Tame W r.1 ∧ r.2.Tame W ∧ (Supported W r.2 → ∀ p, headPred q.head = some p → ∀ t, Den W (positive r.1) t → Layout E arity p t) := by
  simp only [ruleFlow, Option.bind_eq_some_iff] at h
  obtain ⟨x, hx, d, hd, h⟩ := h
  obtain ⟨x', d', hx', hd', hf, hsafe, _⟩ := queryPlan_good hS hq.ok
  rw [hx] at hx'
  cases hx'
  rw [hd] at hd'
  cases hd'
  obtain ⟨a, ha, hm⟩ := hq.atom
  have hh := hq.head
  rw [hq.temps] at h
  have hcov := queryPlan_covered hS hq.ok hq.aggs hx hd
  rw [ha] at h hh hf hsafe
  obtain ⟨h1, h2, h3⟩ := atomHead_tame hX hO hE hh hm hf hcov hsafe hs h
  refine ⟨h1, h2, fun hsup p hp => ?_⟩
  rw [ha] at hp
  cases hp
  exact h3 hsup

theorem ruleFlow_le {S : Search} (hX : W.X.ExactFloats) (hO : E.Orders) (hS : S.Lawful) {q : SRule F} (hq : RuleTame W E arity q) {s : St F} {r}
    (h : ruleFlow E S q.head q.body q.inPlace s = some r) : St.Le s r.2 := by
  simp only [ruleFlow, Option.bind_eq_some_iff] at h
  obtain ⟨x, hx, d, hd, h⟩ := h
  obtain ⟨x', d', hx', hd', hf, hsafe, _⟩ := queryPlan_good hS hq.ok
  rw [hx] at hx'
  cases hx'
  rw [hd] at hd'
  cases hd'
  obtain ⟨a, ha, hm⟩ := hq.atom
  have hh := hq.head
  rw [ha] at h hh hf hsafe
  simp only [headFlow] at h
  exact atomHead_le hX hO hh hm hf hsafe h

/-! ## Strata -/

theorem rulesFlow_tame (hX : W.X.ExactFloats) (hO : E.Orders) (hE : ∀ r, E.indexed r = false) {S : Search} (hS : S.Lawful) :
    ∀ {qs : List (SRule F)} {s : St F} {r}, (∀ q ∈ qs, RuleTame W E arity q) → s.Tame W → rulesFlow E S qs s = some r →
      (∀ u ∈ r.1, Tame W u.flow) ∧ r.2.Tame W
  | [], s, r, _, hs, h => by
    simp only [rulesFlow, Option.some.injEq] at h
    subst h
    exact ⟨by simp, hs⟩
  | q :: qs, s, r, hq, hs, h => by
    simp only [rulesFlow, Option.bind_eq_some_iff, Option.map_eq_some_iff] at h
    obtain ⟨p, _, f, hf, us, hus, rfl⟩ := h
    obtain ⟨h1, h2, _⟩ := ruleFlow_tame hX hO hE hS (hq q (by simp)) hs hf
    obtain ⟨h3, h4⟩ := rulesFlow_tame hX hO hE hS (fun q hq' => hq q (by simp [hq'])) h2 hus
    refine ⟨?_, h4⟩
    intro u hu
    rcases List.mem_cons.mp hu with rfl | hu
    · exact h1
    · exact h3 u hu

/-- Everything in the strata meets the conditions. -/
def AllTame (W : World F) (sts : List (Ram.Stratum F)) : Prop := ∀ st ∈ sts, ∀ u ∈ st.updates, Tame W u.flow

theorem strataFlow_tame (hX : W.X.ExactFloats) (hO : E.Orders) (hE : ∀ r, E.indexed r = false) {S : Search} (hS : S.Lawful) {rules : List (SRule F)} :
    ∀ {strata : List (List String)} {s : St F} {r}, (∀ D ∈ strata, ∀ p ∈ D, ∀ q ∈ rulesOf rules p, RuleTame W E arity q) → s.Tame W →
      strataFlow E S rules strata s = some r → AllTame W r.1 ∧ r.2.Tame W
  | [], s, r, _, hs, h => by
    simp only [strataFlow, Option.some.injEq] at h
    subst h
    exact ⟨by simp [AllTame], hs⟩
  | D :: strata, s, r, hq, hs, h => by
    simp only [strataFlow, stratumFlow, Option.bind_eq_some_iff, Option.map_eq_some_iff] at h
    obtain ⟨r1, ⟨f, hf, rfl⟩, r2, h2, rfl⟩ := h
    have hs0 : St.Tame W { s with temps := [] } := by
      intro n d h
      rcases h with h | h
      · cases h
      · exact hs n d (Or.inr h)
    obtain ⟨h3, h4⟩ := rulesFlow_tame (qs := D.flatMap (rulesOf rules)) hX hO hE hS (by
      intro q hq'
      obtain ⟨p, hp, hq'⟩ := List.mem_flatMap.mp hq'
      exact hq D (by simp) p hp q hq') hs0 hf
    obtain ⟨h5, h6⟩ := strataFlow_tame hX hO hE hS (fun D hD => hq D (by simp [hD])) h4 h2
    refine ⟨?_, h6⟩
    intro st hst u hu
    rcases List.mem_cons.mp hst with rfl | hst
    · simp only [List.mem_append, List.mem_map, Prod.exists] at hu
      rcases hu with ⟨n, d, hd, rfl⟩ | hu
      · exact h4 n d (Or.inl hd)
      · exact h3 u hu
    · exact h5 st hst u hu

theorem addPerms_tame {perms : List (String × Perm)} {st st' : Ram.Stratum F} (hst : ∀ u ∈ st.updates, Tame W u.flow) (h : addPerms perms st = some st') :
    ∀ u ∈ st'.updates, Tame W u.flow := by
  simp only [addPerms, Option.map_eq_some_iff] at h
  obtain ⟨us, hus, rfl⟩ := h
  intro u hu
  rcases List.mem_append.mp hu with hu | hu
  · exact hst u hu
  · have key : ∀ {l : List (String × Perm)} {us : List (Update F)}, l.mapM (fun q => permUpdate (F := F) q.1 q.2) = some us → u ∈ us → Tame W u.flow := by
      intro l
      induction l with
      | nil => intro us h hu; simp at h; subst h; cases hu
      | cons q l ih =>
        intro us h hu
        rw [List.mapM_cons] at h
        simp only [Option.bind_eq_bind, Option.bind_eq_some_iff, Option.pure_def, Option.some.injEq] at h
        obtain ⟨v, hv, vs, hvs, rfl⟩ := h
        rcases List.mem_cons.mp hu with rfl | hu
        · simp only [permUpdate, Option.map_eq_some_iff] at hv
          obtain ⟨e, _, rfl⟩ := hv
          exact ⟨trivial, trivial⟩
        · exact ih hvs hu
    exact key hus hu

theorem placeNegs_tame : ∀ {sts : List (Ram.Stratum F)} {acc negs}, AllTame W sts → (∀ n ∈ negs, Tame W n.2) → AllTame W (placeNegs acc negs sts)
  | [], _, _, _, _ => by simp [placeNegs, AllTame]
  | st :: sts, acc, negs, h, hn => by
    intro st' hst' u hu
    simp only [placeNegs] at hst'
    rcases List.mem_cons.mp hst' with rfl | hst'
    · rcases List.mem_append.mp hu with hu | hu
      · exact h st (by simp) u hu
      · obtain ⟨n, hn', rfl⟩ := List.mem_map.mp hu
        exact hn n (List.mem_filter.mp hn').1
    · exact placeNegs_tame (fun st hst => h st (by simp [hst])) (fun n hn' => hn n (List.mem_filter.mp hn').1) st' hst' u hu

theorem compileStrata_tame (hX : W.X.ExactFloats) (hO : E.Orders) (hE : ∀ r, E.indexed r = false) {S : Search} (hS : S.Lawful) {rules : List (SRule F)}
    {strata : List (List String)} (hq : ∀ D ∈ strata, ∀ p ∈ D, ∀ q ∈ rulesOf rules p, RuleTame W E arity q) {ram}
    (h : compileStrata E S rules strata = some ram) : AllTame W ram := by
  simp only [compileStrata, Option.bind_eq_some_iff, Option.map_eq_some_iff] at h
  obtain ⟨r, hr, sts, hsts, rfl⟩ := h
  obtain ⟨h1, h2⟩ := strataFlow_tame hX hO hE hS hq (by intro n d h; rcases h with h | h <;> cases h) hr
  refine placeNegs_tame ?_ (fun n hn => h2 n.1 n.2 (Or.inr hn))
  have key : ∀ {l sts : List (Ram.Stratum F)}, AllTame W l → l.mapM (addPerms r.2.perms) = some sts → AllTame W sts := by
    intro l
    induction l with
    | nil => intro sts _ h; simp at h; subst h; simp [AllTame]
    | cons q l ih =>
      intro sts hl h
      rw [List.mapM_cons] at h
      simp only [Option.bind_eq_bind, Option.bind_eq_some_iff, Option.pure_def, Option.some.injEq] at h
      obtain ⟨v, hv, vs, hvs, rfl⟩ := h
      intro st hst
      rcases List.mem_cons.mp hst with rfl | hst
      · exact addPerms_tame (hl q (by simp)) hv
      · exact ih (fun st hst => hl st (by simp [hst])) hvs st hst
  exact key h1 hsts

end

/-! ## The bound -/

theorem positive_noMinus : ∀ d : Dataflow F, NoMinus (positive d)
  | .leaf _ => trivial
  | .un _ d => positive_noMinus d
  | .project d _ => positive_noMinus d
  | .bin o d1 d2 => by cases o <;> first | exact positive_noMinus d1 | exact ⟨positive_noMinus d1, positive_noMinus d2⟩

theorem positive_keeps : ∀ {d : Dataflow F}, KeepsTags d → KeepsTags (positive d)
  | .leaf _, h => h
  | .un o d, h => by cases o <;> first | exact h.elim | exact positive_keeps (d := d) h
  | .project d _, h => positive_keeps (d := d) h
  | .bin o d1 d2, h => by cases o <;> first | exact positive_keeps (d := d1) h.1 | exact ⟨positive_keeps (d := d1) h.1, positive_keeps (d := d2) h.2⟩

/-- The relations that the compiler makes up, with their dataflows without subtractions. -/
def auxLayer (G : Setting F) (strata : List (List String)) (ss : List (Nat × St F)) (sN : St F) (ram : List (Ram.Stratum F)) : Layer (Tup (Val F)) where
  names := (ram.flatMap (fun st => st.relations)).filter (fun r => decide (r ∉ strata.flatten))
  defs := {d | ∃ k r f, Aux strata ss sN k r f ∧ KeepsTags f ∧ d = ⟨r, fun J t => Den (G.world J) (positive f) t⟩}

/-- The relations of the program hold everything of the right form. -/
def boundOf (G : Setting F) (E : Plan.Env F) (arity : String → Nat) (strata : List (List String)) (ss : List (Nat × St F)) (sN : St F)
    (ram : List (Ram.Stratum F)) : Interp (Tup (Val F)) :=
  (auxLayer G strata ss sN ram).solve (fun _ _ => False) (Layout E arity)

section
variable {E : Plan.Env F} {S : Search} {rules : List (SRule F)} {strata : List (List String)} {ram : List (Ram.Stratum F)} {ss : List (Nat × St F)} {sN : St F}
  {G : Setting F} {arity : String → Nat}

theorem bound_user {p : String} (hp : p ∈ strata.flatten) (t : Tup (Val F)) : boundOf G E arity strata ss sN ram p t ↔ Layout E arity p t :=
  patch_out (by simp only [auxLayer, List.mem_filter, decide_eq_true_eq, not_and, not_not]; exact fun _ => hp) t

theorem Aux.stratum (c : Comp E S rules strata ram ss sN) {k : Nat} {r : String} {d : Dataflow F} (h : Aux strata ss sN k r d) :
    At strata ss sN k r ∧ ∃ st, ram[k]? = some st := by
  have hk : k < strata.length := by
    rcases h with ⟨s, hs, _⟩ | ⟨D, hD, _⟩ | h
    · rw [← c.len2]
      exact (List.getElem?_eq_some_iff.mp hs).1
    · exact (List.getElem?_eq_some_iff.mp hD).1
    · by_contra hk
      obtain ⟨lo, hi⟩ := c.invN
      obtain ⟨_, hf⟩ := hi.negs _ _ h.mem
      have hlt : ∀ j r, Base strata ss sN j r → j < strata.length := fun j r ⟨D, _, hD, _⟩ => (List.getElem?_eq_some_iff.mp hD).1
      obtain ⟨r, hr⟩ := List.exists_mem_of_ne_nil _ hf.some
      obtain ⟨j, _, hj⟩ := h.cov r hr
      have := hlt j r hj
      refine h.first (strata.length - 1) (by omega) (fun r hr => ?_)
      obtain ⟨j, _, hj⟩ := h.cov r hr
      have := hlt j r hj
      exact ⟨j, by omega, hj⟩
  refine ⟨(c.at_iff (List.getElem?_eq_getElem hk)).mpr (Or.inr ⟨d, h⟩), _, List.getElem?_eq_getElem (by rw [c.len]; exact hk)⟩

theorem bound_aux (c : Comp E S rules strata ram ss sN) (hn : strata.flatten.Nodup) (hu : ∀ p ∈ strata.flatten, UserName p) (hG : G.Local) {k : Nat} {r : String}
    {d : Dataflow F} (h : Aux strata ss sN k r d) (hd : KeepsTags d) (t : Tup (Val F)) :
    boundOf G E arity strata ss sN ram r t ↔ Den (G.world (boundOf G E arity strata ss sN ram)) (positive d) t := by
  have hin : ∀ {k r d}, Aux strata ss sN k r d → r ∈ (auxLayer G strata ss sN ram).names := by
    intro k r d h
    obtain ⟨h1, st, hst⟩ := h.stratum c
    simp only [auxLayer, List.mem_filter, decide_eq_true_eq]
    exact ⟨List.mem_flatMap.mpr ⟨st, List.mem_of_getElem? hst, (c.rel k st hst r).mpr h1⟩, c.aux_not_user hu h⟩
  have hmono : (auxLayer G strata ss sN ram).Mono (Layout E arity) := by
    rintro _ ⟨k, r, f, _, hk, rfl⟩ X Y hXY t
    refine den_mono hG ?_ (fun _ h => h.elim) (fun _ h => h.elim) (noMinus_reads (positive_noMinus f) (positive_keeps hk)) t
    intro r _ t ht
    by_cases hr : r ∈ (auxLayer G strata ss sN ram).names
    · exact (patch_in hr t).mpr (hXY r hr t ((patch_in hr t).mp ht))
    · exact (patch_out hr t).mpr ((patch_out hr t).mp ht)
  have hown : (auxLayer G strata ss sN ram).Own := by
    rintro _ ⟨k, r, f, h, _, rfl⟩
    exact hin h
  have hfix := lfp_fix (facts := fun _ _ => False) hmono hown (hin h) t
  rw [boundOf, Layer.solve, patch_in (hin h), hfix]
  constructor
  · rintro (h' | ⟨_, ⟨k', r', f', ha, _, rfl⟩, rfl, h'⟩)
    · exact h'.elim
    · have hk : k' = k := c.at_unique hn hu (ha.stratum c).1 (h.stratum c).1
      subst hk
      rw [c.aux_fun h ha]
      exact h'
  · exact fun h' => Or.inr ⟨_, ⟨k, r, d, h, hd, rfl⟩, rfl, h'⟩

theorem bound_supported (c : Comp E S rules strata ram ss sN) (hn : strata.flatten.Nodup) (hu : ∀ p ∈ strata.flatten, UserName p) (hG : G.Local)
    (hk : ∀ k r d, Aux strata ss sN k r d → KeepsTags d) {k : Nat} {s : Nat × St F} (hs : ss[k]? = some s) :
    Supported (G.world (boundOf G E arity strata ss sN ram)) s.2 := by
  have key : ∀ j r d, Aux strata ss sN j r d → ∀ t, boundOf G E arity strata ss sN ram r t → Den (G.world (boundOf G E arity strata ss sN ram)) (positive d) t :=
    fun j r d h t => (bound_aux c hn hu hG h (hk j r d h) t).mp
  refine ⟨fun n d hd => key k n d (Or.inl ⟨s, hs, hd⟩), ?_, ?_⟩
  · intro n d hd
    obtain ⟨j, hj, hn⟩ := c.neg_at hs hd
    exact key j n d (Or.inr (Or.inr hn))
  · intro p π hp t ht
    obtain ⟨h1, e, he⟩ := (c.inv k s hs).perms p π hp
    have h1 : UpTo strata (k + 1) p := by
      rcases h1 with h1 | h1
      · exact h1
      · obtain ⟨j, D, hj, hD, hq⟩ := mem_upTo.mp h1
        exact mem_upTo.mpr ⟨j, D, Nat.lt_succ_of_lt hj, hD, hq⟩
    obtain ⟨j, D, hj, hD, hq⟩ := mem_upTo.mp h1
    obtain ⟨u, h2, h3⟩ := key j (permName p π) _ (Or.inr (Or.inl ⟨D, hD, p, hq, π, e, (c.last s (List.mem_of_getElem? hs)).2 _ hp, he, rfl, rfl⟩)) t ht
    exact ⟨u, e, h2, he, h3⟩

end

/-! ## Programs -/

section
variable [LinearOrder (Val F)] {R : Runtime F T} {E : Plan.Env F} {S : Search} {arity : String → Nat} {rules : List (SRule F)} {strata : List (List String)}
  {decl : String → Decl} {edb : Db F T} {ram : List (Ram.Stratum F)} {ss : List (Nat × St F)} {sN : St F}

omit [LinearOrder (Val F)] in
theorem tagRunnable_tame (ok : ProgramOk (R.settingIn (fun _ => True)) E arity rules strata (edbIn (fun _ => True) edb))
    (run : TagRunnable R E rules strata decl) {k : Nat} {D : List String} (hD : strata[k]? = some D) {q : SRule F} (hq : q ∈ rules) {p : String} (hp : p ∈ D)
    (hpq : headPred q.head = some p) {L : Interp (Tup (Val F))} (hL : ∀ p ∈ strata.flatten, ∀ t, L p t → Layout E arity p t) :
    RuleTame ((R.settingIn (fun _ => True)).world L) E arity q := by
  obtain ⟨h1, h2, _⟩ := ok.rule k D hD q hq p hp hpq
  refine ⟨h1.top ?_, h2, run.heads q hq, run.temps q hq, run.aggs q hq⟩
  have hsub : ∀ m p, UpTo strata m p → p ∈ strata.flatten := by
    intro m p h
    obtain ⟨j, D, _, hD, hq⟩ := mem_upTo.mp h
    exact mem_of_get hD hq
  rintro a (ha | ha) t
  · exact hL _ (hsub _ _ (ok.pos k D hD q hq p hp hpq a ha)) t
  · exact hL _ (hsub _ _ (ok.neg k D hD q hq p hp hpq a ha).1) t

/-- What the program is compiled to meets the conditions under which the tags of its results say in which worlds they hold. -/
theorem compiled_plain (hX : R.X.ExactFloats) (hO : E.Orders) (hS : S.Lawful)
    (ok : ProgramOk (R.settingIn (fun _ => True)) E arity rules strata (edbIn (fun _ => True) edb))
    (run : TagRunnable R E rules strata decl) (h : compileStrata E S rules strata = some ram) : Program.Plain R ⟨ram, decl⟩ edb := by
  obtain ⟨ss, sN, k⟩ := ok.comp hS h
  have hloc := settingIn_local (fun _ => True) R
  have hL : ∀ p ∈ strata.flatten, ∀ t, boundOf (R.settingIn (fun _ => True)) E arity strata ss sN ram p t → Layout E arity p t :=
    fun p hp t => (bound_user hp t).mp
  have hq : ∀ D ∈ strata, ∀ p ∈ D, ∀ q ∈ rulesOf rules p, RuleTame ((R.settingIn (fun _ => True)).world
      (boundOf (R.settingIn (fun _ => True)) E arity strata ss sN ram)) E arity q := by
    intro D hD p hp q hq
    obtain ⟨i, hi⟩ := List.mem_iff_getElem?.mp hD
    simp only [rulesOf, List.mem_filter, decide_eq_true_eq] at hq
    exact tagRunnable_tame ok run hi hq.1 hp hq.2 hL
  have ht := compileStrata_tame hX hO (fun r => (run.plain r).1) hS hq h
  have haux : ∀ j r d, Aux strata ss sN j r d → Tame ((R.settingIn (fun _ => True)).world
      (boundOf (R.settingIn (fun _ => True)) E arity strata ss sN ram)) d := by
    intro j r d hd
    obtain ⟨_, st, hst⟩ := hd.stratum k
    exact ht st (List.mem_of_getElem? hst) _ (k.aux_update hst hd)
  refine ⟨fun st hst u hu => (ht st hst u hu).tags, ⟨_, ⟨?_, ?_⟩, fun st hst u hu => (ht st hst u hu).sharp⟩, fun r _ => run.lfp r⟩
  · intro r t hrt
    obtain ⟨h1, h2⟩ := ok.facts r t hrt
    exact (bound_user h1 t).mpr h2
  · intro st hst u hu t hd
    obtain ⟨i, hi⟩ := List.mem_iff_getElem?.mp hst
    obtain ⟨s, D, hs, hD⟩ := k.get' hi
    rcases k.update hD hs hi hu with ⟨q, hq', h1, h2, s1, s2, h3, h4⟩ | h3
    · have hqt := tagRunnable_tame ok run hD hq' h1 h2 hL
      have hsup := bound_supported (E := E) (arity := arity) k ok.nodup ok.names hloc (fun j r d hd => (haux j r d hd).tags) hs
      have hst1 : St.Tame ((R.settingIn (fun _ => True)).world (boundOf (R.settingIn (fun _ => True)) E arity strata ss sN ram)) s1 := by
        have hle := (ruleFlow_le hX hO hS hqt h3).trans h4
        intro n d hnd
        rcases hnd with hnd | hnd
        · exact haux i n d (Or.inl ⟨s, hs, hle.temps _ hnd⟩)
        · obtain ⟨j, _, hn⟩ := k.neg_at hs (hle.negs _ hnd)
          exact haux j n d (Or.inr (Or.inr hn))
      obtain ⟨_, _, h5⟩ := ruleFlow_tame hX hO (fun r => (run.plain r).1) hS hqt hst1 h3
      exact (bound_user (mem_of_get hD h1) t).mpr (h5 (hsup.mono h4) _ h2 t hd)
    · exact (bound_aux k ok.nodup ok.names hloc h3 (haux _ _ _ h3).tags t).mpr hd

theorem compiled_ok_tags {W : Type} (c : Prov T W) (hO : E.Orders) (hS : S.Lawful) {G : Setting F} {facts : Interp (Tup (Val F))}
    (ok : ProgramOk G E arity rules strata facts)
    (run : TagRunnable R E rules strata decl) (h : compileStrata E S rules strata = some ram) : Program.Ok R ⟨ram, decl⟩ := by
  refine compiled_ok_of (c := { c with minus := fun _ _ => none }) hS ok (fun r => (run.plain r).2) run.writable h
    (compileStrata_nice (Wd := topWorld G E arity) hO (fun r => (run.plain r).1) hS ?_ h)
  intro D hD p hp q hq
  obtain ⟨k, hk⟩ := List.mem_iff_getElem?.mp hD
  simp only [rulesOf, List.mem_filter, decide_eq_true_eq] at hq
  exact ⟨(ok.rule k D hk q hq.1 p hp hq.2).1, run.temps q hq.1, run.vars q hq.1, fun r hr => (by rw [run.aggs q hq.1] at hr; cases hr), fun _ _ _ => rfl⟩

omit [LinearOrder (Val F)] in
/-- The conditions on a program do not depend on the world. -/
theorem programOk_in (ok : ProgramOk (R.settingIn (fun _ => True)) E arity rules strata (edbIn (fun _ => True) edb)) (v : T → Prop) :
    ProgramOk (R.settingIn v) E arity rules strata (edbIn v edb) :=
  { ok with
    facts := fun p t ⟨a, h1, e, h2, h3, _⟩ => ok.facts p t ⟨a, h1, e, h2, h3, trivial⟩
    rule := fun k D hD r hr p hp hpr => by
      obtain ⟨h1, h2, h3⟩ := ok.rule k D hD r hr p hp hpr
      exact ⟨{ h1 with }, h2, h3⟩ }

omit [LinearOrder (Val F)] in
theorem noMinus_of_discrete {W : Type} {c : Prov T W} (hc : ∃ a b, c.minus a b ≠ none) : ∀ {d : Dataflow F}, KeepsTags d → Discrete c R d → Exec.NoMinus d
  | .leaf _, _, _ => trivial
  | .un o d, hk, h => by cases o <;> first | exact hk.elim | exact noMinus_of_discrete (d := d) hc hk h
  | .project d _, hk, h => noMinus_of_discrete (d := d) hc hk h
  | .bin o d1 d2, hk, h => by
    obtain ⟨a, b, hab⟩ := hc
    cases o <;> first
      | exact absurd (h.1 a b) hab
      | exact ⟨noMinus_of_discrete (d := d1) ⟨a, b, hab⟩ hk.1 h.1, noMinus_of_discrete (d := d2) ⟨a, b, hab⟩ hk.2 h.2⟩

/-- Rules without negation are compiled to dataflows without negation. -/
theorem compiled_noMinus {W : Type} (c : Prov T W) (one : T) (hO : E.Orders) (hS : S.Lawful) {G : Setting F} {facts : Interp (Tup (Val F))}
    (ok : ProgramOk G E arity rules strata facts) (run : TagRunnable R E rules strata decl) (h : compileStrata E S rules strata = some ram)
    (hn : ∀ q ∈ rules, negOf q.body = []) (hk : ∀ st ∈ ram, ∀ u ∈ st.updates, KeepsTags u.flow) : Program.NoMinus ⟨ram, decl⟩ := by
  have := compileStrata_nice (c := { c with minus := fun _ _ => some one }) (R := R) (Wd := topWorld G E arity) hO (fun r => (run.plain r).1) hS (by
    intro D hD p hp q hq
    obtain ⟨k, hk⟩ := List.mem_iff_getElem?.mp hD
    simp only [rulesOf, List.mem_filter, decide_eq_true_eq] at hq
    exact ⟨(ok.rule k D hk q hq.1 p hp hq.2).1, run.temps q hq.1, run.vars q hq.1, fun r hr => (by rw [run.aggs q hq.1] at hr; cases hr),
      fun h => absurd (hn q hq.1) h⟩) h
  exact fun st hst u hu => noMinus_of_discrete ⟨one, one, by simp⟩ (hk st hst u hu) (this st hst u hu).discrete

end

end Scallop.Plan
