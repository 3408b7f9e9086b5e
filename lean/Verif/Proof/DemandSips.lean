import Verif.Proof.Demand

/-!
# Demand transformation: declarations, information passing, generated rules
-/

namespace Scallop.Plan

open Scallop.Back Scallop.Ram

variable {F : Type}

/-! ## Declarations -/

theorem parsePattern_iff {s : String} {pat : List Bool} : parsePattern s = some pat ↔ s.toList = pat.map (fun b => if b then 'b' else 'f') := by
  unfold parsePattern
  generalize s.toList = cs
  induction cs generalizing pat with
  | nil => cases pat <;> simp
  | cons c cs ih =>
    cases pat with
    | nil =>
      simp only [List.mapM_cons, Option.bind_eq_bind, Option.bind_eq_some_iff]
      constructor
      · rintro ⟨_, _, _, _, h⟩
        cases h
      · intro h
        cases h
    | cons b pat =>
      simp only [List.mapM_cons, Option.bind_eq_bind, Option.bind_eq_some_iff, List.map_cons, List.cons.injEq, ← ih]
      constructor
      · rintro ⟨b', h1, bs, h2, h3⟩
        simp only [Option.pure_def, Option.some.injEq, List.cons.injEq] at h3
        obtain ⟨rfl, rfl⟩ := h3
        refine ⟨?_, h2⟩
        split at h1
        · simp at h1; subst h1; simpa
        · split at h1
          · simp at h1; subst h1; simpa
          · cases h1
      · rintro ⟨rfl, h⟩
        refine ⟨b, ?_, pat, h, rfl⟩
        cases b <;> simp

theorem collect_mem : ∀ {rels : List RelDecl} {A : List (String × Adornment)}, collectAdornments rels = some A →
    (∀ q ∈ A, OnDemand rels q.1 q.2.pattern q.2.demandPredicate) ∧
    ∀ p pat d, OnDemand rels p pat d → (p, ⟨pat, d⟩) ∈ A
  | [], A, h => by
    simp only [collectAdornments, Option.some.injEq] at h
    subst h
    exact ⟨by simp, by rintro p pat d ⟨r, hr, _⟩; simp at hr⟩
  | r :: rels, A, h => by
    have weak : ∀ p pat d, OnDemand rels p pat d → OnDemand (r :: rels) p pat d := by
      rintro p pat d ⟨r', h1, h2⟩
      exact ⟨r', by simp [h1], h2⟩
    cases hd : r.demand with
    | none =>
      rw [collectAdornments, hd] at h
      obtain ⟨h1, h2⟩ := collect_mem h
      refine ⟨fun q hq => weak _ _ _ (h1 q hq), ?_⟩
      rintro p pat d ⟨r', hr', h3, s, h4, h5⟩
      rcases List.mem_cons.1 hr' with rfl | hr'
      · rw [hd] at h4; cases h4
      · exact h2 p pat d ⟨r', hr', h3, s, h4, h5⟩
    | some s =>
      rw [collectAdornments, hd] at h
      simp only [Option.bind_eq_some_iff] at h
      obtain ⟨pat, hp, h⟩ := h
      split at h
      · rw [Option.map_eq_some_iff] at h
        obtain ⟨as, hA, rfl⟩ := h
        obtain ⟨h1, h2⟩ := collect_mem hA
        constructor
        · intro q hq
          rcases List.mem_append.1 hq with hq | hq
          · exact weak _ _ _ (h1 q hq)
          · simp only [List.mem_singleton] at hq
            subst hq
            exact ⟨r, by simp, rfl, s, hd, parsePattern_iff.1 hp, rfl⟩
        · rintro p pat' d ⟨r', hr', h3, s', h4, h5, h6⟩
          rcases List.mem_cons.1 hr' with rfl | hr'
          · rw [hd] at h4
            cases h4
            have := (parsePattern_iff.2 h5).symm.trans hp
            cases this
            subst h3 h6
            simp
          · exact List.mem_append_left _ (h2 p pat' d ⟨r', hr', h3, s', h4, h5, h6⟩)
      · cases h

theorem onDemand_unique {rels : List RelDecl} (hn : (rels.map RelDecl.predicate).Nodup) {p : String} {pat pat' : List Bool} {d d' : String}
    (h1 : OnDemand rels p pat d) (h2 : OnDemand rels p pat' d') : pat = pat' ∧ d = d' := by
  obtain ⟨r, hr, a1, s, a2, a3, a4⟩ := h1
  obtain ⟨r', hr', b1, s', b2, b3, b4⟩ := h2
  have : r = r' := List.inj_on_of_nodup_map hn hr hr' (by rw [a1, b1])
  subst this
  rw [a2] at b2
  cases b2
  have e : pat = pat' := Option.some.inj ((parsePattern_iff.2 a3).symm.trans (parsePattern_iff.2 b3))
  exact ⟨e, by rw [a4, b4]⟩

theorem adornment_iff {rels : List RelDecl} {A : List (String × Adornment)} (hn : (rels.map RelDecl.predicate).Nodup) (h : collectAdornments rels = some A)
    (p : String) (adm : Adornment) : adornment A p = some adm ↔ OnDemand rels p adm.pattern adm.demandPredicate := by
  obtain ⟨h1, h2⟩ := collect_mem h
  unfold adornment
  rw [Option.map_eq_some_iff]
  constructor
  · rintro ⟨q, hq, rfl⟩
    have := List.find?_some hq
    simp only [decide_eq_true_eq] at this
    subst this
    exact h1 q (List.mem_of_find?_eq_some hq)
  · intro ho
    have hm := h2 _ _ _ ho
    have : (A.find? (fun q => decide (q.1 = p))).isSome := by
      rw [List.find?_isSome]
      exact ⟨_, hm, by simp⟩
    obtain ⟨q, hq⟩ := Option.isSome_iff_exists.1 this
    refine ⟨q, hq, ?_⟩
    have hqp := List.find?_some hq
    simp only [decide_eq_true_eq] at hqp
    subst hqp
    obtain ⟨e1, e2⟩ := onDemand_unique hn (h1 q (List.mem_of_find?_eq_some hq)) ho
    cases hq2 : q.2
    cases adm
    simp_all

theorem adornment_none {rels : List RelDecl} {A : List (String × Adornment)} (hn : (rels.map RelDecl.predicate).Nodup) (h : collectAdornments rels = some A)
    (p : String) : adornment A p = none ↔ ∀ pat d, ¬ OnDemand rels p pat d := by
  constructor
  · intro hp pat d ho
    rw [(adornment_iff hn h p ⟨pat, d⟩).2 ho] at hp
    cases hp
  · intro hp
    cases ha : adornment A p with
    | none => rfl
    | some adm => exact absurd ((adornment_iff hn h p adm).1 ha) (hp _ _)

theorem boundedArgs_given {α : Type} : ∀ (pat : List Bool) (args : List α), boundedArgs pat args = givenPart pat args
  | [], args => by simp [boundedArgs, givenPart]
  | b :: pat, [] => by cases b <;> simp [boundedArgs, givenPart]
  | true :: pat, x :: xs => by
    have := boundedArgs_given pat xs
    simp [boundedArgs, givenPart] at this ⊢
    exact this
  | false :: pat, x :: xs => by
    have := boundedArgs_given pat xs
    simp [boundedArgs, givenPart] at this ⊢
    exact this

theorem givenPart_map {α β : Type} (f : α → β) : ∀ (pat : List Bool) (args : List α), givenPart pat (args.map f) = (givenPart pat args).map f
  | [], args => by simp [givenPart]
  | b :: pat, [] => by cases b <;> simp [givenPart]
  | true :: pat, x :: xs => by simp [givenPart, givenPart_map f pat xs]
  | false :: pat, x :: xs => by simp [givenPart, givenPart_map f pat xs]

theorem mem_boundedVarsOf {pat : List Bool} {args : List (Term String F)} {x : String} : x ∈ boundedVarsOf pat args ↔ .var x ∈ givenPart pat args := by
  unfold boundedVarsOf
  rw [boundedArgs_given, List.mem_filterMap]
  constructor
  · rintro ⟨t, ht, hx⟩
    cases t <;> simp [Term.var?] at hx
    subst hx
    exact ht
  · intro h
    exact ⟨_, h, rfl⟩

/-! ## Information passing -/

/-- The given arguments are known after `m` rounds. -/
def Rd (Kn : Nat → String → Prop) (m : Nat) (q : Atom String F × Adornment) : Prop := ∀ y ∈ boundedVarsOf q.2.pattern q.1.args, Kn m y

/-- Where the search for an order of the on-demand atoms is after `n` rounds. -/
structure SipInv (Kn : Nat → String → Prop) (base0 : List (Lit String F Reduce)) (T : List (Atom String F × Adornment)) (n : Nat)
    (base : List (Lit String F Reduce)) (todo : List (Atom String F × Adornment)) : Prop where
  lits : ∀ l, l ∈ base ↔ l ∈ base0 ∨ ∃ q ∈ T, l = .atom q.1 ∧ q ∉ todo
  open_ : ∀ q ∈ todo, q ∈ T ∧ ∀ m < n, ¬ Rd Kn m q
  done : ∀ q ∈ T, q ∉ todo → ∃ m < n, Rd Kn m q

theorem sips_ok {Kn : Nat → String → Prop} {base0 : List (Lit String F Reduce)} {T : List (Atom String F × Adornment)} {Ng : Atom String F × Adornment → Prop}
    (hK : ∀ n base todo, SipInv Kn base0 T n base todo → ∀ x, Gr base x ↔ Kn n x)
    (reach : ∀ q ∈ T, ∃ n, Rd Kn n q) (last : ∀ q ∈ T, Ng q → ∀ n, Rd Kn n q → ∀ q' ∈ T, Rd Kn n q')
    (hbase : ∀ q ∈ T, .atom q.1 ∉ base0) (hinj : ∀ q ∈ T, ∀ q' ∈ T, q.1 = q'.1 → q = q') :
    ∀ (fuel n : Nat) (base : List (Lit String F Reduce)) (todo : List (Atom String F × Adornment)), todo.length < fuel → SipInv Kn base0 T n base todo →
    ∃ arcs, sips fuel base todo = some (some arcs) ∧ (∀ q ∈ todo, ∃ arc ∈ arcs, q ∈ arc.rhs) ∧
      (∀ arc ∈ arcs, ∀ q ∈ arc.rhs, q ∈ T ∧ .atom q.1 ∉ arc.lhs) ∧
      ∀ P : Lit String F Reduce → Prop, (∀ l ∈ base, P l) → (∀ arc ∈ arcs, (∀ l ∈ arc.lhs, P l) → ∀ q ∈ arc.rhs, ¬ Ng q → P (.atom q.1)) →
        ∀ arc ∈ arcs, ∀ l ∈ arc.lhs, P l
  | 0, _, _, _, hf, _ => by omega
  | fuel + 1, n, base, todo, hf, inv => by
    obtain ⟨g, hg, hgr⟩ := grounded_spec base
    have hnow : ∀ q : Atom String F × Adornment, ((boundedVarsOf q.2.pattern q.1.args).all g.contains) = true ↔ Rd Kn n q := by
      intro q
      simp only [List.all_eq_true, List.contains_iff_mem, Rd]
      exact ⟨fun h y hy => (hK n base todo inv y).1 ((hgr y).1 (h y hy)), fun h y hy => (hgr y).2 ((hK n base todo inv y).2 (h y hy))⟩
    have hfresh : ∀ q ∈ todo, .atom q.1 ∉ base := by
      intro q hq hmem
      rcases (inv.lits _).1 hmem with h | ⟨q', hq', he, hn'⟩
      · exact hbase q (inv.open_ q hq).1 h
      · simp only [Lit.atom.injEq] at he
        exact hn' (hinj q (inv.open_ q hq).1 q' hq' he ▸ hq)
    simp only [sips, hg, Option.bind_some]
    by_cases hl : (todo.filter (fun q => !(boundedVarsOf q.2.pattern q.1.args).all g.contains)).isEmpty = true
    · rw [if_pos hl]
      have hall : ∀ q ∈ todo, ((boundedVarsOf q.2.pattern q.1.args).all g.contains) = true := by
        intro q hq
        rw [List.isEmpty_iff, List.filter_eq_nil_iff] at hl
        simpa using hl q hq
      refine ⟨_, rfl, fun q hq => ⟨_, List.mem_singleton_self _, List.mem_filter.2 ⟨hq, hall q hq⟩⟩, ?_, ?_⟩
      · intro arc harc q hq
        rw [List.mem_singleton] at harc
        subst harc
        have := (List.mem_filter.1 hq).1
        exact ⟨(inv.open_ q this).1, hfresh q this⟩
      · intro P hP _ arc harc
        rw [List.mem_singleton] at harc
        subst harc
        exact hP
    · rw [if_neg hl]
      have hlater : ∃ q ∈ todo, ¬ Rd Kn n q := by
        rw [List.isEmpty_iff, List.filter_eq_nil_iff] at hl
        simp only [not_forall] at hl
        obtain ⟨q, hq, h⟩ := hl
        refine ⟨q, hq, fun hr => ?_⟩
        rw [← hnow q] at hr
        simp only [hr, Bool.not_true] at h
        exact h (by simp)
      by_cases hn : (todo.filter (fun q => (boundedVarsOf q.2.pattern q.1.args).all g.contains)).isEmpty = true
      · exfalso
        have stuck : ∀ q ∈ todo, ¬ Rd Kn n q := by
          intro q hq hr
          rw [List.isEmpty_iff, List.filter_eq_nil_iff] at hn
          exact hn q hq ((hnow q).2 hr)
        have all : ∀ j, SipInv Kn base0 T (n + j) base todo := by
          intro j
          induction j with
          | zero => exact inv
          | succ j ih =>
            refine ⟨inv.lits, fun q hq => ⟨(inv.open_ q hq).1, fun m hm => ?_⟩, fun q hq hq' => ?_⟩
            · by_cases hmj : m < n + j
              · exact (ih.open_ q hq).2 m hmj
              · have : m = n + j := by omega
                subst this
                intro hr
                refine stuck q hq (fun y hy => ?_)
                rw [← hK n base todo inv y, hK (n + j) base todo ih y]
                exact hr y hy
            · obtain ⟨m, hm, h⟩ := inv.done q hq hq'
              exact ⟨m, by omega, h⟩
        obtain ⟨q, hq, _⟩ := hlater
        obtain ⟨m, hm⟩ := reach q (inv.open_ q hq).1
        exact ((all (m + 1)).open_ q hq).2 m (by omega) hm
      · rw [if_neg hn]
        have inv' : SipInv Kn base0 T (n + 1) (base ++ (todo.filter (fun q => (boundedVarsOf q.2.pattern q.1.args).all g.contains)).map (fun q => .atom q.1))
            (todo.filter (fun q => !(boundedVarsOf q.2.pattern q.1.args).all g.contains)) := by
          refine ⟨fun l => ?_, fun q hq => ?_, fun q hq hq' => ?_⟩
          · rw [List.mem_append, inv.lits l]
            constructor
            · rintro ((h | ⟨q, h1, h2, h3⟩) | h)
              · exact .inl h
              · exact .inr ⟨q, h1, h2, fun h => h3 (List.mem_filter.1 h).1⟩
              · obtain ⟨q, h1, rfl⟩ := List.mem_map.1 h
                obtain ⟨h2, h3⟩ := List.mem_filter.1 h1
                refine .inr ⟨q, (inv.open_ q h2).1, rfl, fun h => ?_⟩
                have := (List.mem_filter.1 h).2
                simp only [h3] at this
                cases this
            · rintro (h | ⟨q, h1, h2, h3⟩)
              · exact .inl (.inl h)
              · by_cases hq : q ∈ todo
                · refine .inr (List.mem_map.2 ⟨q, List.mem_filter.2 ⟨hq, ?_⟩, h2.symm⟩)
                  by_contra hc
                  exact h3 (List.mem_filter.2 ⟨hq, by simpa using hc⟩)
                · exact .inl (.inr ⟨q, h1, h2, hq⟩)
          · obtain ⟨h1, h2⟩ := List.mem_filter.1 hq
            refine ⟨(inv.open_ q h1).1, fun m hm => ?_⟩
            by_cases hmn : m < n
            · exact (inv.open_ q h1).2 m hmn
            · have : m = n := by omega
              subst this
              intro hr
              rw [← hnow q] at hr
              simp only [hr] at h2
              cases h2
          · by_cases h : q ∈ todo
            · refine ⟨n, by omega, (hnow q).1 ?_⟩
              by_contra hc
              exact hq' (List.mem_filter.2 ⟨h, by simpa using hc⟩)
            · obtain ⟨m, hm, h⟩ := inv.done q hq h
              exact ⟨m, by omega, h⟩
        obtain ⟨arcs, a1, a2, a3, a4⟩ := sips_ok hK reach last hbase hinj fuel (n + 1) _ _ (by
          have : (todo.filter (fun q => !(boundedVarsOf q.2.pattern q.1.args).all g.contains)).length < todo.length := by
            rw [List.length_filter_lt_length_iff_exists]
            rw [List.isEmpty_iff, List.filter_eq_nil_iff] at hn
            simp only [not_forall] at hn
            obtain ⟨q, hq, h⟩ := hn
            exact ⟨q, hq, by simpa using h⟩
          omega) inv'
        refine ⟨_, by rw [a1]; rfl, ?_, ?_, ?_⟩
        · intro q hq
          by_cases h : ((boundedVarsOf q.2.pattern q.1.args).all g.contains) = true
          · exact ⟨_, List.mem_cons_self, List.mem_filter.2 ⟨hq, h⟩⟩
          · obtain ⟨arc, h1, h2⟩ := a2 q (List.mem_filter.2 ⟨hq, by simpa using h⟩)
            exact ⟨arc, List.mem_cons_of_mem _ h1, h2⟩
        · intro arc harc q hq
          rcases List.mem_cons.1 harc with rfl | harc
          · have := (List.mem_filter.1 hq).1
            exact ⟨(inv.open_ q this).1, hfresh q this⟩
          · exact a3 arc harc q hq
        · intro P hP hstep arc harc
          rcases List.mem_cons.1 harc with rfl | harc
          · exact hP
          · refine a4 P (fun l hl => ?_) (fun arc' h => hstep arc' (List.mem_cons_of_mem _ h)) arc harc
            rcases List.mem_append.1 hl with hl | hl
            · exact hP l hl
            · obtain ⟨q, hq, rfl⟩ := List.mem_map.1 hl
              refine hstep _ List.mem_cons_self hP q hq (fun hng => ?_)
              obtain ⟨h1, h2⟩ := List.mem_filter.1 hq
              obtain ⟨q', hq', hnr⟩ := hlater
              exact hnr (last q (inv.open_ q h1).1 hng n ((hnow q).1 h2) q' (inv.open_ q' hq').1)

/-! ## Generated rules -/

theorem allSome_mem {α β : Type} {f : α → Option β} : ∀ {as : List α} {bs : List β}, allSome f as = some bs →
    (∀ a ∈ as, ∃ b ∈ bs, f a = some b) ∧ ∀ b ∈ bs, ∃ a ∈ as, f a = some b
  | [], bs, h => by
    simp only [allSome, Option.some.injEq] at h
    subst h
    simp
  | a :: as, bs, h => by
    simp only [allSome, Option.bind_eq_some_iff, Option.map_eq_some_iff] at h
    obtain ⟨b, hb, bs', hbs, rfl⟩ := h
    obtain ⟨h1, h2⟩ := allSome_mem hbs
    constructor
    · intro a' ha
      rcases List.mem_cons.1 ha with rfl | ha
      · exact ⟨b, by simp, hb⟩
      · obtain ⟨b', h3, h4⟩ := h1 a' ha
        exact ⟨b', by simp [h3], h4⟩
    · intro b' hb'
      rcases List.mem_cons.1 hb' with rfl | hb'
      · exact ⟨a, by simp, hb⟩
      · obtain ⟨a', h3, h4⟩ := h2 b' hb'
        exact ⟨a', by simp [h3], h4⟩

theorem allSome_isSome {α β : Type} {f : α → Option β} : ∀ (as : List α), (∀ a ∈ as, (f a).isSome) → (allSome f as).isSome
  | [], _ => rfl
  | a :: as, h => by
    obtain ⟨b, hb⟩ := Option.isSome_iff_exists.1 (h a (by simp))
    obtain ⟨bs, hbs⟩ := Option.isSome_iff_exists.1 (allSome_isSome as (fun a' ha => h a' (by simp [ha])))
    simp [allSome, hb, hbs]

theorem removeUngrounded_sub {base base' : List (Lit String F Reduce)} (h : removeUngrounded base = some base') : ∀ l ∈ base', l ∈ base := by
  simp only [removeUngrounded, Option.map_eq_some_iff] at h
  obtain ⟨g, _, rfl⟩ := h
  intro l hl
  exact (List.mem_filter.1 hl).1

theorem demandRule_some [DecidableEq F] {base : List (Lit String F Reduce)} {goal : Atom String F} (adm : Adornment) (h : .atom goal ∉ base) :
    ∃ body, demandRule base goal adm = some (some { head := .atom ⟨adm.demandPredicate, boundedArgs adm.pattern goal.args⟩, body := body }) ∧ ∀ l ∈ body, l ∈ base := by
  obtain ⟨g, hg, _⟩ := grounded_spec base
  have : (removeUngrounded base).isSome := by simp [removeUngrounded, hg]
  obtain ⟨base', hb⟩ := Option.isSome_iff_exists.1 this
  have hsub := removeUngrounded_sub hb
  refine ⟨base', ?_, hsub⟩
  simp only [demandRule, hb, Option.map_some]
  rw [if_neg]
  intro hid
  unfold isIdentity at hid
  split at hid
  · simp only [decide_eq_true_eq] at hid
    subst hid
    exact h (hsub _ (by simp))
  · cases hid

theorem demandRule_head [DecidableEq F] {base : List (Lit String F Reduce)} {goal : Atom String F} {adm : Adornment} {dr : SRule F} (h : demandRule base goal adm = some (some dr)) :
    headPred dr.head = some adm.demandPredicate := by
  simp only [demandRule, Option.map_eq_some_iff] at h
  obtain ⟨b, _, h⟩ := h
  split at h
  · cases h
  · simp only [Option.some.injEq] at h
    subst h
    rfl

/-- The rules generated for what a rule demands define demand relations only. -/
theorem demandRules_head [DecidableEq F] {A : List (String × Adornment)} {body : List (Lit String F Reduce)} {ds : List (SRule F)} (h : demandRules A body = some ds) :
    ∀ dr ∈ ds, ∃ arcs q, (∃ n base, sips n base (body.filterMap (onDemand? A)) = some (some arcs)) ∧ (∃ arc ∈ arcs, q ∈ arc.rhs) ∧ headPred dr.head = some q.2.demandPredicate := by
  intro dr hdr
  simp only [demandRules, Option.bind_eq_some_iff] at h
  obtain ⟨r, hr, h⟩ := h
  cases r with
  | none =>
    simp only [Option.some.injEq] at h
    subst h
    simp at hdr
  | some arcs =>
    simp only [Option.map_eq_some_iff] at h
    obtain ⟨rss, h1, rfl⟩ := h
    simp only [List.mem_filterMap, List.mem_flatten, id] at hdr
    obtain ⟨o, ⟨rs, hrs, ho⟩, rfl⟩ := hdr
    obtain ⟨arc, harc, h2⟩ := (allSome_mem h1).2 rs hrs
    obtain ⟨q, hq, h3⟩ := (allSome_mem h2).2 _ ho
    exact ⟨arcs, q, ⟨_, _, hr⟩, ⟨arc, harc, hq⟩, demandRule_head h3⟩

theorem sips_rhs : ∀ (n : Nat) (base : List (Lit String F Reduce)) (todo : List (Atom String F × Adornment)) (arcs : List (SipArc F)),
    sips n base todo = some (some arcs) → ∀ arc ∈ arcs, ∀ q ∈ arc.rhs, q ∈ todo
  | 0, _, _, _, h => by simp [sips] at h
  | n + 1, base, todo, arcs, h => by
    simp only [sips, Option.bind_eq_some_iff] at h
    obtain ⟨g, _, h⟩ := h
    split at h
    · simp only [Option.some.injEq] at h
      subst h
      intro arc harc q hq
      rw [List.mem_singleton] at harc
      subst harc
      exact (List.mem_filter.1 hq).1
    · split at h
      · cases h
      · simp only [Option.map_eq_some_iff] at h
        obtain ⟨r, h1, arcs', rfl, rfl⟩ := h
        intro arc harc q hq
        rcases List.mem_cons.1 harc with rfl | harc
        · exact (List.mem_filter.1 hq).1
        · exact (List.mem_filter.1 (sips_rhs n _ _ _ h1 arc harc q hq)).1

end Scallop.Plan
