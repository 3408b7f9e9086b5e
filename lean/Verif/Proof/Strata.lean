import Verif.Proof.Comp

/-!
# A model of the compiled program is a model of the program
-/

namespace Scallop.Plan

open Scallop.Back Scallop.Ram

variable {F : Type}

/-! ## Heads -/

theorem evalV_fromVars {σ : Asg F} {vs : List String} (h : vs.Nodup) : evalV σ (fromVars vs true) = single (vs.map σ) := by
  unfold fromVars
  rw [uniq_of_nodup h]
  match vs with
  | [] => rfl
  | [x] => rfl
  | x :: y :: vs => exact evalV_vals σ (x :: y :: vs)

theorem headTuple_arranged {E : Env F} {a : Atom String F} {g b sh} (hsh : E.shape a.predicate = some sh) (hn : sh ≠ .normal)
    (hargs : a.args = (atomVars a).map .var) (hnd : (atomVars a).Nodup) (h : headTuple E a = some (g, b)) :
    b = false ∧ (∀ x, x ∈ leaves g ↔ x ∈ atomVars a) ∧ ∀ σ : Asg F, evalV σ g = arranged sh (a.args.map (Term.val σ)) := by
  have hmap : ∀ σ : Asg F, a.args.map (Term.val σ) = (atomVars a).map σ := by
    intro σ
    rw [hargs, List.map_map]
    exact List.map_congr_left fun x _ => rfl
  have hsplit : ∀ (n : Nat) x, x ∈ (atomVars a).take n ∨ x ∈ (atomVars a).drop n ↔ x ∈ atomVars a := by
    intro n x
    rw [← List.mem_append, List.take_append_drop]
  cases sh with
  | normal => exact absurd rfl hn
  | aggBody n =>
    simp only [headTuple, hsh, Option.bind_some] at h
    split at h
    · simp only [Option.some.injEq, Prod.mk.injEq] at h
      obtain ⟨rfl, rfl⟩ := h
      refine ⟨rfl, ?_, ?_⟩
      · intro x
        split
        · rename_i h0
          subst h0
          simp [mem_fromVars]
        · rw [← hsplit n x]
          simp [leaves, leavesList, mem_fromVars]
      · intro σ
        rw [hmap]
        simp only [arranged]
        split
        · rename_i h0
          subst h0
          rw [List.drop_zero, evalV_fromVars hnd]
        · simp only [evalV, evalVs, evalV_fromVars (hnd.sublist (List.take_sublist _ _)), evalV_fromVars (hnd.sublist (List.drop_sublist _ _)),
            List.map_take, List.map_drop]
    · cases h
  | aggGroupBy n =>
    simp only [headTuple, hsh, Option.bind_some] at h
    split at h
    · simp only [Option.some.injEq, Prod.mk.injEq] at h
      obtain ⟨rfl, rfl⟩ := h
      refine ⟨rfl, ?_, ?_⟩
      · intro x
        rw [← hsplit n x]
        simp [leaves, leavesList, mem_fromVars]
      · intro σ
        rw [hmap]
        simp only [arranged, evalV, evalVs, evalV_fromVars (hnd.sublist (List.take_sublist _ _)), evalV_fromVars (hnd.sublist (List.drop_sublist _ _)),
            List.map_take, List.map_drop]
    · cases h

/-- The dataflow of a rule yields what the rule derives. -/
theorem rule_exact {W : World F} {E : Env F} (hX : W.X.ExactFloats) (hO : E.Orders) {S : Search} (hS : S.Lawful) {arity : String → Nat} {head : Head String F}
    {body : List (Lit String F Reduce)} (ok : RuleOk W E E.numBounded body (headVars head)) (hh : HeadGood E arity head)
    (hkept : ∀ l ∈ body, Kept body l) {inPlace : Bool} {s s' : St F} {f : Dataflow F} (h : ruleFlow E S head body inPlace s = some (f, s'))
    (hs : Solves W s') (t : Tup (Val F)) : Den W f t ↔ ∃ σ, (∀ l ∈ body, LitHolds W σ l) ∧ Derives E σ head t := by
  obtain ⟨c, d, h1, h2, hfit, hsafe, h5, h6⟩ := queryPlan_good hS ok
  simp only [ruleFlow, h1, h2, Option.bind_some] at h
  have key : ∀ t, Den W f t ↔ ∃ σ, Sat W d σ ∧ Derives E σ head t := by
    intro t
    cases head with
    | atom a =>
      rcases hh with ⟨hn, _⟩ | ⟨hn, hargs, hnd⟩
      · rw [atomHead_corr hX hO hn hfit hsafe h hs t]
        refine exists_congr fun σ => and_congr_right fun _ => ?_
        simp only [Derives, hn, Option.some.injEq, exists_eq_left', arranged]
      · have h' := h
        simp only [headFlow, atomHeadFlow, Option.bind_eq_some_iff] at h'
        obtain ⟨⟨g, b⟩, hg, _⟩ := h'
        have hsome : ∃ sh, E.shape a.predicate = some sh := by
          simp only [headTuple, Option.bind_eq_some_iff] at hg
          exact ⟨hg.choose, hg.choose_spec.1⟩
        obtain ⟨sh, hsh⟩ := hsome
        obtain ⟨rfl, hl, he⟩ := headTuple_arranged hsh (fun e => hn (by rw [hsh, e])) hargs hnd hg
        rw [aggHead_corr hX hO hg (by
          have : (fun x => x ∈ leaves g) = fun x => x ∈ headVars (.atom a) := funext fun x => propext (hl x)
          rw [this]
          exact hfit) (fun x hx => hsafe x ((hl x).mp hx)) h hs t]
        refine exists_congr fun σ => and_congr_right fun _ => ?_
        simp only [Derives, hsh, Option.some.injEq, exists_eq_left', he]
    | disj as =>
      cases as with
      | nil => simp [headFlow, disjHeadFlow] at h
      | cons a as => exact disjHead_corr hX hO hh.2.2.1 (fun b hb => (hh.2.2.2 b hb).2) hfit hsafe h hs t
  rw [key]
  exact ⟨fun ⟨σ, h7, h8⟩ => ⟨σ, fun l hl => h6 σ h7 l hl (hkept l hl), h8⟩, fun ⟨σ, h7, h8⟩ => ⟨σ, h5 σ h7, h8⟩⟩

/-- The facts a rule derives have the right form. -/
theorem derives_layout {E : Env F} {arity : String → Nat} {head : Head String F} (hh : HeadGood E arity head) {p : String} (hp : headPred head = some p)
    {σ : Asg F} {t : Tup (Val F)} (h : Derives E σ head t) : Layout E arity p t := by
  intro hn
  cases head with
  | atom a =>
    simp only [headPred, Option.some.injEq] at hp
    subst hp
    rcases hh with ⟨_, hl⟩ | ⟨hn', _⟩
    · obtain ⟨sh, h1, h2⟩ := h
      rw [hn] at h1
      cases h1
      exact ⟨_, by simpa using hl, h2⟩
    · exact absurd hn hn'
  | disj as =>
    cases as with
    | nil => simp [headPred] at hp
    | cons a as =>
      simp only [headPred, Option.some.injEq] at hp
      subst hp
      obtain ⟨b, hb, rfl⟩ := h
      refine ⟨_, ?_, rfl⟩
      rw [List.length_map]
      rcases List.mem_cons.mp hb with rfl | hb
      · exact hh.2.1
      · rw [(hh.2.2.2 b hb).2]
        exact hh.2.1

/-- The conditions on a rule hold for all contents of the right form. -/
theorem RuleOk.top {G : Setting F} {E : Env F} {arity : String → Nat} {nb} {body : List (Lit String F Reduce)} {head}
    (ok : RuleOk (topWorld G E arity) E nb body head) {K : Interp (Tup (Val F))}
    (hK : ∀ a, a ∈ posOf body ∨ a ∈ negOf body → ∀ t, K a.predicate t → Layout E arity a.predicate t) : RuleOk (G.world K) E nb body head :=
  { ok with
    flat := fun a ha => ⟨fun t ht => (ok.flat a ha).1 t (hK a ha t ht), (ok.flat a ha).2⟩
    red := fun r hr => ⟨fun t ht => (ok.red r hr).1 t ⟨K, ht⟩, (ok.red r hr).2⟩
    used := fun a ha hl => ok.used a ha hl }

/-- A literal that is true stays true if positive atoms get more facts. -/
theorem lits_mono {G : Setting F} (hG : G.Local) {body : List (Lit String F Reduce)} {K K' : Interp (Tup (Val F))}
    (hp : ∀ a ∈ posOf body, ∀ t, K a.predicate t → K' a.predicate t) (hn : ∀ a ∈ negOf body, ∀ t, K a.predicate t ↔ K' a.predicate t)
    (hr : ∀ q ∈ reducesOf body, (∀ t, K q.body t ↔ K' q.body t) ∧ ∀ g, q.groupByPred = some g → ∀ t, K g t ↔ K' g t) {σ : Asg F} :
    (∀ l ∈ body, LitHolds (G.world K) σ l) → ∀ l ∈ body, LitHolds (G.world K') σ l := by
  intro h l hl
  have := h l hl
  cases l with
  | atom a => exact hp a (List.mem_filterMap.mpr ⟨_, hl, rfl⟩) _ this
  | neg a => exact fun h' => this ((hn a (List.mem_filterMap.mpr ⟨_, hl, rfl⟩) _).mpr h')
  | reduce r g =>
    obtain ⟨h1, h2⟩ := hr r (List.mem_filterMap.mpr ⟨_, hl, rfl⟩)
    refine (hG K K' _ _ _ h1 ?_ _).mp this
    intro q hq
    refine h2 q ?_
    simp only [reduceGroupBy] at hq
    split at hq
    · cases hq
    · split at hq <;> simp_all
  | assign x e => exact this
  | cbin op a b => exact this
  | cnot a => exact this
  | tt => exact this
  | ff => exact this

/-! ## Auxiliary relations -/

section
variable {E : Env F} {S : Search} {rules : List (SRule F)} {strata : List (List String)} {ram : List (Ram.Stratum F)} {ss : List (Nat × St F)} {sN : St F}

/-- The relation is one the compiler makes up, for the dataflow, in the `k`-th stratum. -/
def Aux (strata : List (List String)) (ss : List (Nat × St F)) (sN : St F) (k : Nat) (r : String) (d : Dataflow F) : Prop :=
  (∃ s, ss[k]? = some s ∧ (r, d) ∈ s.2.temps) ∨
  (∃ D, strata[k]? = some D ∧ ∃ p ∈ D, ∃ π e, (p, π) ∈ sN.perms ∧ permExpr π = some e ∧ r = permName p π ∧ d = .project (.leaf (.rel p)) e) ∨
  NegAt strata ss sN k r d

theorem Comp.get (c : Comp E S rules strata ram ss sN) {k : Nat} {D : List String} (hD : strata[k]? = some D) :
    ∃ s st, ss[k]? = some s ∧ ram[k]? = some st := by
  have hlt := (List.getElem?_eq_some_iff.mp hD).1
  exact ⟨_, _, List.getElem?_eq_getElem (by rw [c.len2]; exact hlt), List.getElem?_eq_getElem (by rw [c.len]; exact hlt)⟩

theorem Comp.get' (c : Comp E S rules strata ram ss sN) {k : Nat} {st : Ram.Stratum F} (hst : ram[k]? = some st) :
    ∃ s D, ss[k]? = some s ∧ strata[k]? = some D := by
  have hlt := (List.getElem?_eq_some_iff.mp hst).1
  rw [c.len] at hlt
  exact ⟨_, _, List.getElem?_eq_getElem (by rw [c.len2]; exact hlt), List.getElem?_eq_getElem hlt⟩

theorem Comp.at_iff (c : Comp E S rules strata ram ss sN) {k : Nat} {D : List String} (hD : strata[k]? = some D) {r : String} :
    At strata ss sN k r ↔ r ∈ D ∨ ∃ d, Aux strata ss sN k r d := by
  obtain ⟨s, st, hs, hst⟩ := c.get hD
  constructor
  · rintro (⟨D', s', hD', hs', h⟩ | ⟨d, h⟩)
    · rw [hD] at hD'; cases hD'
      rw [hs] at hs'; cases hs'
      rcases h with h | ⟨d, h⟩ | ⟨p, hp, π, hπ, rfl⟩
      · exact Or.inl h
      · exact Or.inr ⟨d, Or.inl ⟨s, hs, h⟩⟩
      · obtain ⟨lo, hi⟩ := c.invN
        obtain ⟨_, e, he⟩ := hi.perms p π hπ
        exact Or.inr ⟨_, Or.inr (Or.inl ⟨D, hD, p, hp, π, e, hπ, he, rfl, rfl⟩)⟩
    · exact Or.inr ⟨d, Or.inr (Or.inr h)⟩
  · rintro (h | ⟨d, ⟨s', hs', h⟩ | ⟨D', hD', p, hp, π, e, hπ, he, rfl, rfl⟩ | h⟩)
    · exact Or.inl ⟨D, s, hD, hs, Or.inl h⟩
    · exact Or.inl ⟨D, s', hD, hs', Or.inr (Or.inl ⟨d, h⟩)⟩
    · exact Or.inl ⟨D', s, hD', hs, Or.inr (Or.inr ⟨p, hp, π, hπ, rfl⟩)⟩
    · exact Or.inr ⟨d, h⟩

theorem Comp.aux_not_user (c : Comp E S rules strata ram ss sN) (hu : ∀ p ∈ strata.flatten, UserName p) {k : Nat} {r : String} {d : Dataflow F}
    (h : Aux strata ss sN k r d) : r ∉ strata.flatten := by
  intro hr
  have hn := (hu r hr).ne
  rcases h with ⟨s, hs, h⟩ | ⟨D, hD, p, hp, π, e, hπ, he, rfl, rfl⟩ | h
  · obtain ⟨⟨i, _, _, e⟩, -⟩ := (c.inv k s hs).temps r d h
    exact hn.1 i e
  · exact hn.2.2 p π rfl
  · obtain ⟨i, e⟩ := c.neg_name h.mem
    exact hn.2.1 i e

theorem Comp.aux_fun (c : Comp E S rules strata ram ss sN) {k : Nat} {r : String} {d d' : Dataflow F}
    (h : Aux strata ss sN k r d) (h' : Aux strata ss sN k r d') : d = d' := by
  rcases h with ⟨s, hs, h⟩ | ⟨D, hD, p, hp, π, e, hπ, he, rfl, rfl⟩ | h
  · obtain ⟨⟨i, _, _, e1⟩, -⟩ := (c.inv k s hs).temps r d h
    rcases h' with ⟨s', hs', h'⟩ | ⟨D', hD', p', hp', π', e', hπ', he', e2, rfl⟩ | h'
    · rw [hs] at hs'; cases hs'
      exact nodup_fst (c.inv k s hs).tnodup h h'
    · exact absurd (e1.symm.trans e2) (temp_ne_perm i p' π')
    · obtain ⟨i', e2⟩ := c.neg_name h'.mem
      exact absurd (e1.symm.trans e2) (temp_ne_ntemp i i')
  · rcases h' with ⟨s', hs', h'⟩ | ⟨D', hD', p', hp', π', e', hπ', he', e2, rfl⟩ | h'
    · obtain ⟨⟨i, _, _, e1⟩, -⟩ := (c.inv k s' hs').temps _ d' h'
      exact absurd e1.symm (temp_ne_perm i p π)
    · obtain ⟨rfl, rfl⟩ := permName_inj e2
      rw [he] at he'
      cases he'
      rfl
    · obtain ⟨i', e2⟩ := c.neg_name h'.mem
      exact absurd e2.symm (ntemp_ne_perm i' p π)
  · obtain ⟨i, e1⟩ := c.neg_name h.mem
    rcases h' with ⟨s', hs', h'⟩ | ⟨D', hD', p', hp', π', e', hπ', he', e2, rfl⟩ | h'
    · obtain ⟨⟨i', _, _, e2⟩, -⟩ := (c.inv k s' hs').temps _ d' h'
      exact absurd (e2.symm.trans e1) (temp_ne_ntemp i' i)
    · exact absurd (e1.symm.trans e2) (ntemp_ne_perm i p' π')
    · exact c.neg_fun h.mem h'.mem

theorem Comp.aux_update (c : Comp E S rules strata ram ss sN) {k : Nat} {st : Ram.Stratum F} (hst : ram[k]? = some st) {r : String} {d : Dataflow F}
    (h : Aux strata ss sN k r d) : (⟨r, d⟩ : Update F) ∈ st.updates := by
  rcases h with ⟨s, hs, h⟩ | ⟨D, hD, p, hp, π, e, hπ, he, rfl, rfl⟩ | h
  · exact c.tmp k s st hs hst r d h
  · exact c.prm k D st hD hst p hp π e hπ he
  · exact c.neg k st hst r d h

theorem Comp.update (c : Comp E S rules strata ram ss sN) {k : Nat} {D : List String} {s : Nat × St F} {st : Ram.Stratum F} (hD : strata[k]? = some D)
    (hs : ss[k]? = some s) (hst : ram[k]? = some st) {u : Update F} (hu : u ∈ st.updates) :
    (∃ r ∈ rules, u.target ∈ D ∧ headPred r.head = some u.target ∧ Done E S r u.flow s.2) ∨ Aux strata ss sN k u.target u.flow := by
  rcases c.bwd k D s st hD hs hst u hu with ⟨_, h | h⟩ | ⟨p, hp, π, e, hπ, he, rfl⟩ | h
  · exact Or.inl h
  · exact Or.inr (Or.inl ⟨s, hs, h⟩)
  · exact Or.inr (Or.inr (Or.inl ⟨D, hD, p, hp, π, e, hπ, he, rfl, rfl⟩))
  · exact Or.inr (Or.inr (Or.inr h))

theorem Comp.solves (c : Comp E S rules strata ram ss sN) {G : Setting F} {K : Interp (Tup (Val F))} {k : Nat} {s : Nat × St F} (hs : ss[k]? = some s)
    (h : ∀ j ≤ k, ∀ r d, Aux strata ss sN j r d → ∀ t, K r t ↔ Den (G.world K) d t) : Solves (G.world K) s.2 := by
  refine ⟨fun n d hd t => h k (Nat.le_refl _) n d (Or.inl ⟨s, hs, hd⟩) t, ?_, ?_⟩
  · intro n d hd t
    obtain ⟨j, hj, hn⟩ := c.neg_at hs hd
    exact h j (Nat.le_of_lt hj) n d (Or.inr (Or.inr hn)) t
  · intro p π hp t
    obtain ⟨h1, e, he⟩ := (c.inv k s hs).perms p π hp
    have h1 : UpTo strata (k + 1) p := by
      rcases h1 with h1 | h1
      · exact h1
      · obtain ⟨j, D, hj, hD, hq⟩ := mem_upTo.mp h1
        exact mem_upTo.mpr ⟨j, D, Nat.lt_succ_of_lt hj, hD, hq⟩
    obtain ⟨j, D, hj, hD, hq⟩ := mem_upTo.mp h1
    have := h j (Nat.le_of_lt_succ hj) (permName p π) _ (Or.inr (Or.inl ⟨D, hD, p, hq, π, e, (c.last s (List.mem_of_getElem? hs)).2 _ hp, he, rfl, rfl⟩)) t
    refine this.trans ⟨fun ⟨u, h2, h3⟩ => ⟨u, e, h2, he, h3⟩, fun ⟨u, e', h2, he', h3⟩ => ⟨u, h2, ?_⟩⟩
    rw [he] at he'
    cases he'
    exact h3

/-! ## The layers of the compiled program -/

theorem Comp.own (c : Comp E S rules strata ram ss sN) (G : Setting F) {k : Nat} {st : Ram.Stratum F} (hst : ram[k]? = some st) : (ramLayer G st).Own := by
  obtain ⟨s, D, hs, hD⟩ := c.get' hst
  rintro d ⟨u, hu, rfl⟩
  refine (c.rel k st hst u.target).mpr ((c.at_iff hD).mpr ?_)
  rcases c.update hD hs hst hu with ⟨r, _, h, _⟩ | h
  · exact Or.inl h
  · exact Or.inr ⟨_, h⟩

theorem Comp.mono (c : Comp E S rules strata ram ss sN) (hn : strata.flatten.Nodup) (hu : ∀ p ∈ strata.flatten, UserName p) {G : Setting F} (hG : G.Local) {k : Nat}
    {st : Ram.Stratum F} (hst : ram[k]? = some st) (J : Interp (Tup (Val F))) : (ramLayer G st).Mono J := by
  rintro d ⟨u, hu', rfl⟩ X Y hXY t
  have hout : ∀ r, (∃ j, j < k ∧ At strata ss sN j r) → r ∉ st.relations := by
    rintro r ⟨j, hj, h⟩ hr
    have := c.at_unique hn hu h ((c.rel k st hst r).mp hr)
    exact absurd this (Nat.ne_of_lt hj)
  refine den_mono hG ?_ ?_ ?_ (c.looks hst hu') t
  · rintro r _ t ht
    by_cases hr : r ∈ st.relations
    · exact (patch_in hr t).mpr (hXY r hr t ((patch_in hr t).mp ht))
    · exact (patch_out hr t).mpr ((patch_out hr t).mp ht)
  · intro r hr t ht
    exact (patch_out (hout r hr) t).mpr ((patch_out (hout r hr) t).mp ht)
  · intro r hr t
    exact (patch_out (hout r hr) t).trans (patch_out (hout r hr) t).symm

/-- Layers with relations of their own that look only at earlier ones. -/
theorem layered_of_index {T : Type} : ∀ {Ls : List (Layer T)} {D : List String},
    (∀ (k : Nat) L, Ls[k]? = some L → L.Own ∧ (∀ p ∈ L.names, p ∉ D ∧ ∀ (j : Nat) L', j < k → Ls[j]? = some L' → p ∉ L'.names) ∧ (∀ J, L.Mono J) ∧
      ∀ d ∈ L.defs, ∀ J J' : Interp T, (∀ p, (p ∈ D ∨ ∃ (j : Nat) (L' : Layer T), j ≤ k ∧ Ls[j]? = some L' ∧ p ∈ L'.names) → ∀ t, J p t ↔ J' p t) →
        ∀ t, d.gen J t ↔ d.gen J' t) → Layered D Ls
  | [], _, _ => trivial
  | L :: Ls, D, h => by
    obtain ⟨h1, h2, h3, h4⟩ := h 0 L rfl
    refine ⟨h1, fun p hp => (h2 p hp).1, ?_, h3, ?_⟩
    · intro d hd J J' hJ
      refine h4 d hd J J' ?_
      rintro p (hp | ⟨j, L', hj, hL', hp⟩)
      · exact hJ p (by simp [hp])
      · cases Nat.le_zero.mp hj
        simp only [List.getElem?_cons_zero, Option.some.injEq] at hL'
        subst hL'
        exact hJ p (by simp [hp])
    · refine layered_of_index ?_
      intro k L' hL'
      obtain ⟨a1, a2, a3, a4⟩ := h (k + 1) L' (by simpa using hL')
      refine ⟨a1, ?_, a3, ?_⟩
      · intro p hp
        obtain ⟨b1, b2⟩ := a2 p hp
        refine ⟨?_, fun j L'' hj hL'' => b2 (j + 1) L'' (Nat.succ_lt_succ hj) (by simpa using hL'')⟩
        intro hp'
        rcases List.mem_append.mp hp' with hp' | hp'
        · exact b1 hp'
        · exact b2 0 L (Nat.zero_lt_succ _) rfl hp'
      · intro d hd J J' hJ
        refine a4 d hd J J' ?_
        rintro p (hp | ⟨j, L'', hj, hL'', hp⟩)
        · exact hJ p (Or.inl (by simp [hp]))
        · cases j with
          | zero =>
            simp only [List.getElem?_cons_zero, Option.some.injEq] at hL''
            subst hL''
            exact hJ p (Or.inl (by simp [hp]))
          | succ j => exact hJ p (Or.inr ⟨j, L'', Nat.le_of_succ_le_succ hj, by simpa using hL'', hp⟩)

theorem get_map {α β : Type} {f : α → β} {l : List α} {k : Nat} {b : β} (h : (l.map f)[k]? = some b) : ∃ a, l[k]? = some a ∧ b = f a := by
  rw [List.getElem?_map, Option.map_eq_some_iff] at h
  obtain ⟨a, h1, h2⟩ := h
  exact ⟨a, h1, h2.symm⟩

theorem Comp.layered (c : Comp E S rules strata ram ss sN) (hn : strata.flatten.Nodup) (hu : ∀ p ∈ strata.flatten, UserName p) {G : Setting F} (hG : G.Local) :
    Layered [] (ram.map (ramLayer G)) := by
  refine layered_of_index ?_
  intro k L hL
  obtain ⟨st, hst, rfl⟩ := get_map hL
  refine ⟨c.own G hst, ?_, c.mono hn hu hG hst, ?_⟩
  · intro p hp
    refine ⟨by simp, ?_⟩
    intro j L' hj hL' hp'
    obtain ⟨st', hst', rfl⟩ := get_map hL'
    have := c.at_unique hn hu ((c.rel j st' hst' p).mp hp') ((c.rel k st hst p).mp hp)
    exact absurd this (Nat.ne_of_lt hj)
  · rintro d ⟨u, hu', rfl⟩ J J' hJ t
    have hg : ∀ r, (∃ j, j ≤ k ∧ At strata ss sN j r) → ∀ t, J r t ↔ J' r t := by
      rintro r ⟨j, hj, h⟩
      obtain ⟨st', hst'⟩ : ∃ st', ram[j]? = some st' := by
        have hlt := (List.getElem?_eq_some_iff.mp hst).1
        exact ⟨_, List.getElem?_eq_getElem (Nat.lt_of_le_of_lt hj hlt)⟩
      exact hJ r (Or.inr ⟨j, ramLayer G st', hj, by rw [List.getElem?_map, hst']; rfl, (c.rel j st' hst' r).mpr h⟩)
    have hl : ∀ r, (∃ j, j < k ∧ At strata ss sN j r) → ∀ t, J r t ↔ J' r t := fun r ⟨j, hj, h⟩ => hg r ⟨j, Nat.le_of_lt hj, h⟩
    exact den_congr hG hg hl hl (c.looks hst hu') t

end

/-! ## The layers of the program -/

section
variable {G : Setting F} {E : Env F} {arity : String → Nat} {rules : List (SRule F)} {strata : List (List String)} {facts : Interp (Tup (Val F))}

theorem upTo_mem {k : Nat} {D : List String} (hD : strata[k]? = some D) {p : String} : UpTo strata (k + 1) p ↔ p ∈ D ∨ UpTo strata k p := by
  rw [mem_upTo, mem_upTo]
  constructor
  · rintro ⟨j, D', hj, hD', hp⟩
    rcases Nat.lt_or_eq_of_le (Nat.le_of_lt_succ hj) with h | h
    · exact Or.inr ⟨j, D', h, hD', hp⟩
    · subst h
      rw [hD] at hD'
      cases hD'
      exact Or.inl hp
  · rintro (hp | ⟨j, D', hj, hD', hp⟩)
    · exact ⟨k, D, Nat.lt_succ_self _, hD, hp⟩
    · exact ⟨j, D', Nat.lt_succ_of_lt hj, hD', hp⟩

theorem upTo_out (hn : strata.flatten.Nodup) {k : Nat} {D : List String} (hD : strata[k]? = some D) {p : String} (hp : UpTo strata k p) : p ∉ D := by
  intro h
  obtain ⟨j, D', hj, hD', hp⟩ := mem_upTo.mp hp
  exact absurd (stratum_unique hn hD' hD hp h) (Nat.ne_of_lt hj)

/-- The literals of a rule of the `k`-th stratum stay true if relations of this stratum get more facts. -/
theorem ProgramOk.lits (ok : ProgramOk G E arity rules strata facts) (hG : G.Local) {k : Nat} {D : List String} (hD : strata[k]? = some D) {r : SRule F}
    (hr : r ∈ rules) {p : String} (hp : p ∈ D) (hpr : headPred r.head = some p) {K K' : Interp (Tup (Val F))} (h1 : ∀ p ∈ D, ∀ t, K p t → K' p t)
    (h2 : ∀ p, UpTo strata k p → ∀ t, K p t ↔ K' p t) {σ : Asg F} :
    (∀ l ∈ r.body, LitHolds (G.world K) σ l) → ∀ l ∈ r.body, LitHolds (G.world K') σ l := by
  refine lits_mono hG ?_ ?_ ?_
  · intro a ha t ht
    rcases (upTo_mem hD).mp (ok.pos k D hD r hr p hp hpr a ha) with h | h
    · exact h1 _ h t ht
    · exact (h2 _ h t).mp ht
  · intro a ha t
    exact h2 _ (ok.neg k D hD r hr p hp hpr a ha).1 t
  · intro q hq
    obtain ⟨h3, h4⟩ := ok.red k D hD r hr p hp hpr q hq
    exact ⟨h2 _ h3, fun g hg => h2 _ (h4 g hg)⟩

theorem ProgramOk.layered (ok : ProgramOk G E arity rules strata facts) (hG : G.Local) : Layered [] (strata.map (srcLayer G E rules)) := by
  refine layered_of_index ?_
  intro k L hL
  obtain ⟨D, hD, rfl⟩ := get_map hL
  refine ⟨?_, ?_, ?_, ?_⟩
  · rintro d ⟨r, hr, p, hp, hpr, rfl⟩
    exact hp
  · intro p hp
    refine ⟨by simp, ?_⟩
    intro j L' hj hL' hp'
    obtain ⟨D', hD', rfl⟩ := get_map hL'
    exact absurd (stratum_unique ok.nodup hD' hD hp' hp) (Nat.ne_of_lt hj)
  · rintro J d ⟨r, hr, p, hp, hpr, rfl⟩ X Y hXY t ⟨σ, h1, h2⟩
    refine ⟨σ, ok.lits hG hD hr hp hpr ?_ ?_ h1, h2⟩
    · intro q hq t ht
      exact (patch_in (D := D) hq t).mpr (hXY q hq t ((patch_in (D := D) hq t).mp ht))
    · intro q hq t
      have := upTo_out ok.nodup hD hq
      exact (patch_out (D := D) this t).trans (patch_out (D := D) this t).symm
  · rintro d ⟨r, hr, p, hp, hpr, rfl⟩ J J' hJ t
    have h1 : ∀ j ≤ k, ∀ D', strata[j]? = some D' → ∀ q ∈ D', ∀ t, J q t ↔ J' q t := by
      intro j hj D' hD' q hq
      exact hJ q (Or.inr ⟨j, srcLayer G E rules D', hj, by rw [List.getElem?_map, hD']; rfl, hq⟩)
    have h2 : ∀ q, UpTo strata k q → ∀ t, J q t ↔ J' q t := by
      intro q hq
      obtain ⟨j, D', hj, hD', hq⟩ := mem_upTo.mp hq
      exact h1 j (Nat.le_of_lt hj) D' hD' q hq
    constructor
    · rintro ⟨σ, h3, h4⟩
      exact ⟨σ, ok.lits hG hD hr hp hpr (fun q hq t => (h1 k (Nat.le_refl _) D hD q hq t).mp) h2 h3, h4⟩
    · rintro ⟨σ, h3, h4⟩
      exact ⟨σ, ok.lits hG hD hr hp hpr (fun q hq t => (h1 k (Nat.le_refl _) D hD q hq t).mpr) (fun q hq t => (h2 q hq t).symm) h3, h4⟩

theorem ProgramOk.looks (ok : ProgramOk G E arity rules strata facts) {k : Nat} {D : List String} (hD : strata[k]? = some D) {r : SRule F}
    (hr : r ∈ rules) {p : String} (hp : p ∈ D) (hpr : headPred r.head = some p) : RuleLooks E (UpTo strata (k + 1)) (UpTo strata k) r := by
  obtain ⟨h1, h2, h3⟩ := ok.rule k D hD r hr p hp hpr
  refine ⟨h1.nofp, h1.noff, ⟨ok.pos k D hD r hr p hp hpr, ?_, ok.red k D hD r hr p hp hpr⟩⟩
  intro a ha
  obtain ⟨h4, h5⟩ := ok.neg k D hD r hr p hp hpr a ha
  exact ⟨h4, h5, (h1.flat a (Or.inr ha)).2⟩

theorem ProgramOk.comp (ok : ProgramOk G E arity rules strata facts) {S : Search} (hS : S.Lawful) {ram} (h : compileStrata E S rules strata = some ram) :
    ∃ ss sN, Comp E S rules strata ram ss sN :=
  compileStrata_comp hS ok.names (fun _ _ hD _ hr _ hp hpr => ok.looks hD hr hp hpr) h

end

end Scallop.Plan
