import Verif.Proof.DemandBound
import Verif.Props.Strata

/-!
# On-demand relations: the properties

C85: rewriting a program with on-demand relations keeps the contents of the other relations.
-/

namespace Scallop.Plan

open Scallop.Back Scallop.Ram

variable {F : Type}

/-- **C85 (partial)**: the rewritten program has the same facts in all relations that are not on demand; an on-demand relation has only facts it has
without rewriting, and all of those whose given arguments are demanded. The facts of the demand relations given at the start may be any. -/
theorem c85_partial [DecidableEq F] (G : Setting F) (hG : G.Local) (E : Env F) (rels : List RelDecl) (rules rules' : List (SRule F)) (ds : List String)
    (strata strata' : List (List String)) (h : demandTransform rels rules = .ok (ds, rules')) (ok : DemandOk E rels rules strata)
    (hs : Stratified rules strata) (hs' : Stratified rules' strata') (hnames : ∀ p, p ∈ strata'.flatten ↔ p ∈ strata.flatten ∨ p ∈ ds)
    (hpass : ∀ r ∈ rules, CanPass rels r ∧ NegatedLast rels r) (facts facts' J J' : Interp (Tup (Val F)))
    (hfacts : ∀ p ∈ strata.flatten, ∀ t, facts' p t ↔ facts p t)
    (hJ : StratModel facts (strata.map (srcLayer G E rules)) J) (hJ' : StratModel facts' (strata'.map (srcLayer G E rules')) J')
    (hout : ∀ p, p ∉ strata'.flatten → ∀ t, J' p t ↔ J p t) (p : String) (hp : p ∈ strata.flatten) :
    ((∀ pat d, ¬ OnDemand rels p pat d) → ∀ t, J' p t ↔ J p t) ∧
    (∀ t, J' p t → J p t) ∧
    ∀ pat d, OnDemand rels p pat d → ∀ vs, J p (flat vs) → J' d (flat (givenPart pat vs)) → J' p (flat vs) := by
  unfold demandTransform at h
  cases hA : collectAdornments rels with
  | none => rw [hA] at h; cases h
  | some A =>
    rw [hA] at h
    have hA' := collect_mem hA
    have key : ds = A.map (fun q => q.2.demandPredicate) ∧ ((A = [] ∧ rules' = rules) ∨ transformRules A rules = some rules') := by
      cases A with
      | nil =>
        simp only [Outcome.ok.injEq, Prod.mk.injEq] at h
        exact ⟨h.1.symm, .inl ⟨rfl, h.2.symm⟩⟩
      | cons q A =>
        simp only at h
        cases ht : transformRules (q :: A) rules with
        | none => rw [ht] at h; cases h
        | some rs =>
          rw [ht] at h
          simp only [Outcome.ok.injEq, Prod.mk.injEq] at h
          exact ⟨h.1.symm, .inr (by rw [h.2])⟩
    have R : DemandRun G E rels A rules rules' strata strata' facts facts' J J' := by
      refine ⟨hG, hA, key.2, ok, hs, hs', fun p => ?_, hpass, hJ, hJ', hfacts, hout⟩
      rw [hnames, key.1]
      refine or_congr Iff.rfl ?_
      simp only [List.mem_map]
      constructor
      · rintro ⟨⟨q, ⟨pat, d⟩⟩, hq, rfl⟩
        exact ⟨q, pat, hA'.1 _ hq⟩
      · rintro ⟨q, pat, hq⟩
        exact ⟨_, hA'.2 _ _ _ hq, rfl⟩
    have hm := R.main strata.length p (by simpa using hp)
    refine ⟨fun hno t => ⟨hm.1 t, fun ht => hm.2 t ht (fun pat d hd => absurd hd (hno pat d))⟩, hm.1, ?_⟩
    intro pat d hod vs h1 h2
    refine hm.2 _ h1 (fun pat' d' hod' vs' hv => ?_)
    obtain ⟨rfl, rfl⟩ := onDemand_unique ok.declared hod hod'
    rwa [← flat_inj hv]

/-- **C85, models exist**: a stratified program has a model, whatever the contents of the relations it does not define, so the theorem speaks of all
programs that are stratified before and after rewriting. -/
theorem c85_has_model (G : Setting F) (hG : G.Local) (E : Env F) (rules : List (SRule F)) (strata : List (List String)) (hs : Stratified rules strata)
    (facts J₀ : Interp (Tup (Val F))) :
    ∃ J, StratModel facts (strata.map (srcLayer G E rules)) J ∧ ∀ p, p ∉ strata.flatten → ∀ t, J p t ↔ J₀ p t :=
  stratified_model hG hs facts J₀

/-- **C85, the added rules**: in the rules that say what is demanded all variables of the head, of constraints and of assigned expressions get values from
the atoms and assignments of the rule, if no rule makes new entities. -/
theorem c85_demand_rules_bound [DecidableEq F] (rels : List RelDecl) (rules rules' : List (SRule F)) (ds : List String)
    (h : demandTransform rels rules = .ok (ds, rules')) (hn : (rels.map RelDecl.predicate).Nodup)
    (hfresh : ∀ r ∈ rules, ∀ d ∈ ds, headPred r.head ≠ some d) (hnew : ∀ r ∈ rules, ∀ a ∈ assignsOf r.body, isNew a.2 = false) :
    ∀ r' ∈ rules', ∀ d ∈ ds, headPred r'.head = some d → Plannable r' := by
  intro r' hr' d hd hh
  unfold demandTransform at h
  cases hA : collectAdornments rels with
  | none => rw [hA] at h; cases h
  | some A =>
    rw [hA] at h
    cases A with
    | nil =>
      simp only [Outcome.ok.injEq, Prod.mk.injEq] at h
      rw [← h.1] at hd
      cases hd
    | cons q A =>
      simp only at h
      cases ht : transformRules (q :: A) rules with
      | none => rw [ht] at h; cases h
      | some rs =>
        rw [ht] at h
        simp only [Outcome.ok.injEq, Prod.mk.injEq] at h
        rw [h.2] at ht
        rcases transformRules_plannable hn hA ht hnew r' hr' with ⟨r, hr, hw⟩ | hp
        · rw [hw.1] at hh
          exact absurd hh (hfresh r hr d hd)
        · exact hp

/-- **C85, errors**: a program is rejected exactly if a demand pattern has another letter than `b` and `f`, or another length than the relation. -/
theorem c85_rejects [DecidableEq F] (rels : List RelDecl) (rules : List (SRule F)) : demandTransform rels rules = .undef ↔
    ∃ r ∈ rels, ∃ s, r.demand = some s ∧ ¬ ∃ pat : List Bool, s.toList = pat.map (fun b => if b then 'b' else 'f') ∧ pat.length = r.arity := by
  rw [← collect_none]
  unfold demandTransform
  cases hA : collectAdornments rels with
  | none => simp
  | some A =>
    simp only [reduceCtorEq, iff_false]
    cases A with
    | nil => simp
    | cons q A =>
      simp only
      cases transformRules (q :: A) rules <;> simp

/-! ## An example -/

private abbrev i (n : Int) : Val Empty := .int .i32 n
private abbrev V (x : String) : Term String Empty := .var x
private abbrev at1 (p : String) (args : List (Term String Empty)) : Lit String Empty Reduce := .atom ⟨p, args⟩
private abbrev ng (p : String) (args : List (Term String Empty)) : Lit String Empty Reduce := .neg ⟨p, args⟩

private def ruleCheck (strata : List (List String)) (k : Nat) (D : List String) (r : SRule Empty) : Bool :=
  match headPred r.head with
  | none => true
  | some p => !D.contains p || (reducesOf r.body).isEmpty &&
    (posOf r.body).all (fun a => decide (a.predicate ∈ (strata.take (k + 1)).flatten ∨ a.predicate ∉ strata.flatten)) &&
    (negOf r.body).all (fun a => decide (a.predicate ∈ (strata.take k).flatten ∨ a.predicate ∉ strata.flatten))

private def stratCheck (rules : List (SRule Empty)) (strata : List (List String)) : Bool :=
  decide strata.flatten.Nodup && (List.range strata.length).all (fun k => strata[k]?.toList.all (fun D => rules.all (ruleCheck strata k D)))

private theorem strat_of_check {rules : List (SRule Empty)} {strata : List (List String)} (h : stratCheck rules strata = true) : Stratified rules strata := by
  simp only [stratCheck, Bool.and_eq_true, decide_eq_true_eq, List.all_eq_true, List.mem_range, Option.mem_toList] at h
  have key : ∀ (k : Nat) D, strata[k]? = some D → ∀ r ∈ rules, ∀ p ∈ D, headPred r.head = some p → reducesOf r.body = [] ∧
      (∀ a ∈ posOf r.body, a.predicate ∈ (strata.take (k + 1)).flatten ∨ a.predicate ∉ strata.flatten) ∧
      (∀ a ∈ negOf r.body, a.predicate ∈ (strata.take k).flatten ∨ a.predicate ∉ strata.flatten) := by
    intro k D hD r hr p hp hpr
    have := h.2 k (List.getElem?_eq_some_iff.mp hD).1 D hD r hr
    unfold ruleCheck at this
    rw [hpr] at this
    simp only [List.contains_eq_mem, Bool.or_eq_true, Bool.not_eq_true', decide_eq_false_iff_not, Bool.and_eq_true, List.all_eq_true, decide_eq_true_eq,
      List.isEmpty_iff] at this
    rcases this with h | h
    · exact absurd hp h
    · exact ⟨h.1.1, h.1.2, h.2⟩
  refine ⟨h.1, fun k D hD r hr p hp hpr => (key k D hD r hr p hp hpr).2.1, fun k D hD r hr p hp hpr => (key k D hD r hr p hp hpr).2.2, ?_⟩
  intro k D hD r hr p hp hpr q hq
  rw [(key k D hD r hr p hp hpr).1] at hq
  cases hq

private def exRels : List RelDecl := [⟨"edge", 2, none⟩, ⟨"path", 2, some "bf"⟩, ⟨"blocked", 1, some "b"⟩, ⟨"q", 1, none⟩]

/-- `path` and `blocked` are on demand: `q(y) :- start(x), path(x, y), not blocked(y)`. -/
private def exRules : List (SRule Empty) := [
  { head := .atom ⟨"path", [V "x", V "y"]⟩, body := [at1 "edge" [V "x", V "y"]] },
  { head := .atom ⟨"path", [V "x", V "z"]⟩, body := [at1 "path" [V "x", V "y"], at1 "edge" [V "y", V "z"]] },
  { head := .atom ⟨"blocked", [V "y"]⟩, body := [at1 "bad" [V "y"]] },
  { head := .atom ⟨"q", [V "y"]⟩, body := [at1 "start" [V "x"], at1 "path" [V "x", V "y"], ng "blocked" [V "y"]] }]

private def exRules' : List (SRule Empty) := [
  { head := .atom ⟨"path", [V "x", V "y"]⟩, body := [at1 "edge" [V "x", V "y"], at1 "d#path#bf" [V "x"]] },
  { head := .atom ⟨"path", [V "x", V "z"]⟩, body := [at1 "path" [V "x", V "y"], at1 "edge" [V "y", V "z"], at1 "d#path#bf" [V "x"]] },
  { head := .atom ⟨"blocked", [V "y"]⟩, body := [at1 "bad" [V "y"], at1 "d#blocked#b" [V "y"]] },
  { head := .atom ⟨"d#path#bf", [V "x"]⟩, body := [at1 "edge" [V "y", V "z"], at1 "d#path#bf" [V "x"]] },
  { head := .atom ⟨"d#path#bf", [V "x"]⟩, body := [at1 "start" [V "x"]] },
  { head := .atom ⟨"d#blocked#b", [V "y"]⟩, body := [at1 "start" [V "x"], at1 "path" [V "x", V "y"]] },
  { head := .atom ⟨"q", [V "y"]⟩, body := [at1 "start" [V "x"], at1 "path" [V "x", V "y"], ng "blocked" [V "y"]] }]

private theorem exTransform : demandTransform exRels exRules = .ok (["d#blocked#b", "d#path#bf"], exRules') := by rfl

private theorem onDemand_iff {rels : List RelDecl} {A : List (String × Adornment)} (h : collectAdornments rels = some A) (p : String) (pat : List Bool) (d : String) :
    OnDemand rels p pat d ↔ (p, ⟨pat, d⟩) ∈ A := ⟨(collect_mem h).2 p pat d, (collect_mem h).1 _⟩

private theorem ex_onDemand (p : String) (pat : List Bool) (d : String) : OnDemand exRels p pat d ↔
    (p = "blocked" ∧ pat = [true] ∧ d = "d#blocked#b") ∨ (p = "path" ∧ pat = [true, false] ∧ d = "d#path#bf") := by
  rw [onDemand_iff (A := [("blocked", ⟨[true], "d#blocked#b"⟩), ("path", ⟨[true, false], "d#path#bf"⟩)]) rfl]
  simp

private def exStrata : List (List String) := [["edge"], ["start"], ["bad"], ["path"], ["blocked"], ["q"]]
private def exStrata' : List (List String) := [["edge"], ["start"], ["bad"], ["d#path#bf", "path"], ["d#blocked#b"], ["blocked"], ["q"]]

private theorem exStrat : Stratified exRules exStrata := strat_of_check (by decide +kernel)
private theorem exStrat' : Stratified exRules' exStrata' := strat_of_check (by decide +kernel)

private theorem ex_cases {P : SRule Empty → Prop} (h0 : P exRules[0]) (h1 : P exRules[1]) (h2 : P exRules[2]) (h3 : P exRules[3]) : ∀ r ∈ exRules, P r := by
  intro r hr
  simp only [exRules, List.mem_cons, List.not_mem_nil, or_false] at hr
  rcases hr with rfl | rfl | rfl | rfl
  exacts [h0, h1, h2, h3]

private theorem exOk : DemandOk testEnv exRels exRules exStrata where
  declared := by decide
  defined := by
    intro p pat d h
    rcases (ex_onDemand p pat d).1 h with ⟨rfl, rfl, rfl⟩ | ⟨rfl, rfl, rfl⟩ <;> exact ⟨by decide, rfl, rfl⟩
  fresh := by
    intro p pat d h
    have hocc : ∀ d ∈ ["d#blocked#b", "d#path#bf"], d ∉ exStrata.flatten ∧ ∀ r ∈ exRules, headPred r.head ≠ some d ∧
        (∀ l ∈ r.body, ∀ a, (l = .atom a ∨ l = .neg a) → a.predicate ≠ d) ∧ reducesOf r.body = [] := by
      intro d hd
      simp only [List.mem_cons, List.not_mem_nil, or_false] at hd
      rcases hd with rfl | rfl <;> refine ⟨by decide, ex_cases ?_ ?_ ?_ ?_⟩ <;>
        refine ⟨by decide, ?_, rfl⟩ <;> simp [exRules]
    have hd : d ∈ ["d#blocked#b", "d#path#bf"] := by
      rcases (ex_onDemand p pat d).1 h with ⟨rfl, rfl, rfl⟩ | ⟨rfl, rfl, rfl⟩ <;> simp
    refine ⟨(hocc d hd).1, fun r hr => ⟨((hocc d hd).2 r hr).1, ?_, ?_⟩⟩
    · rintro a (ha | ha)
      · exact ((hocc d hd).2 r hr).2.1 _ ha a (.inl rfl)
      · exact ((hocc d hd).2 r hr).2.1 _ ha a (.inr rfl)
    · intro q hq
      rw [((hocc d hd).2 r hr).2.2] at hq
      cases hq
  aggregated := by
    intro r hr q hq
    have : ∀ r ∈ exRules, reducesOf r.body = [] := ex_cases rfl rfl rfl rfl
    rw [this r hr] at hq
    cases hq

private theorem exPass : ∀ r ∈ exRules, CanPass exRels r ∧ NegatedLast exRels r := by
  refine ex_cases ⟨?_, ?_⟩ ⟨?_, ?_⟩ ⟨?_, ?_⟩ ⟨?_, ?_⟩
  · intro a pat d ha hd
    simp only [exRules, Occurs, List.getElem_cons_zero, List.mem_singleton, Lit.atom.injEq, reduceCtorEq, or_false] at ha
    subst ha
    rcases (ex_onDemand _ _ _).1 hd with ⟨h, _⟩ | ⟨h, _⟩ <;> exact absurd h (by decide)
  · intro a pat d ha
    simp [exRules] at ha
  · intro a pat d _ hd
    refine ⟨0, fun pat' d' hd' y hy => ?_⟩
    rename_i ha
    simp only [exRules, Occurs, List.getElem_cons_zero, List.getElem_cons_succ, List.mem_cons, List.not_mem_nil, or_false, Lit.atom.injEq, reduceCtorEq] at ha
    rcases ha with rfl | rfl
    · rcases (ex_onDemand _ _ _).1 hd' with ⟨h, _⟩ | ⟨_, rfl, rfl⟩
      · exact absurd h (by decide)
      · simp only [givenPart, List.mem_singleton, Term.var.injEq] at hy
        subst hy
        exact .head (pat := [true, false]) rfl hd' (by simp [givenPart])
    · rcases (ex_onDemand _ _ _).1 hd with ⟨h, _⟩ | ⟨h, _⟩ <;> exact absurd h (by decide)
  · intro a pat d ha
    simp [exRules] at ha
  · intro a pat d ha hd
    simp only [exRules, Occurs, List.getElem_cons_zero, List.getElem_cons_succ, List.mem_singleton, Lit.atom.injEq, reduceCtorEq, or_false] at ha
    subst ha
    rcases (ex_onDemand _ _ _).1 hd with ⟨h, _⟩ | ⟨h, _⟩ <;> exact absurd h (by decide)
  · intro a pat d ha
    simp [exRules] at ha
  all_goals
    have hx : ∀ n, Known exRels exRules[3] n "x" := fun n =>
      .atom (a := ⟨"start", [V "x"]⟩) (by simp [exRules]) (fun pat d h => by
        rcases (ex_onDemand _ _ _).1 h with ⟨h, _⟩ | ⟨h, _⟩ <;> exact absurd h (by decide)) (by simp)
    have hp : ∀ n, Ready exRels exRules[3] n ⟨"path", [V "x", V "y"]⟩ := by
      intro n pat d hd y hy
      rcases (ex_onDemand _ _ _).1 hd with ⟨h, _⟩ | ⟨_, rfl, rfl⟩
      · exact absurd h (by decide)
      · simp only [givenPart, List.mem_singleton, Term.var.injEq] at hy
        subst hy
        exact hx n
  · intro a pat d ha hd
    simp only [exRules, Occurs, List.getElem_cons_zero, List.getElem_cons_succ, List.mem_cons, List.not_mem_nil, or_false, Lit.atom.injEq, Lit.neg.injEq,
      reduceCtorEq, false_or] at ha
    rcases ha with (rfl | rfl) | rfl
    · rcases (ex_onDemand _ _ _).1 hd with ⟨h, _⟩ | ⟨h, _⟩ <;> exact absurd h (by decide)
    · exact ⟨0, hp 0⟩
    · refine ⟨1, fun pat' d' hd' y hy => ?_⟩
      have hy' : y = "y" := by
        rcases (ex_onDemand _ _ _).1 hd' with ⟨_, rfl, rfl⟩ | ⟨h, _⟩
        · simpa [givenPart] using hy
        · exact absurd h (by decide)
      subst hy'
      have ho : OnDemand exRels "path" [true, false] "d#path#bf" := (ex_onDemand _ _ _).2 (.inr ⟨rfl, rfl, rfl⟩)
      exact .call (a := ⟨"path", [V "x", V "y"]⟩) (.inl (by simp [exRules])) ho (hp 0 _ _ ho) (by simp)
  · intro a pat d ha hd n hn b pat' d' hb hd'
    simp only [exRules, Occurs, List.getElem_cons_zero, List.getElem_cons_succ, List.mem_cons, List.not_mem_nil, or_false, Lit.atom.injEq, Lit.neg.injEq,
      reduceCtorEq, false_or] at ha hb
    subst ha
    rcases hb with (rfl | rfl) | rfl
    · rcases (ex_onDemand _ _ _).1 hd' with ⟨h, _⟩ | ⟨h, _⟩ <;> exact absurd h (by decide)
    · exact hp n
    · exact hn

/-- The theorem applies to the example: the relation `q` keeps its contents, for all contents of `edge`, `start` and `bad`. -/
example (facts J J' : Interp (Tup (Val Empty))) (hJ : StratModel facts (exStrata.map (srcLayer plainSetting testEnv exRules)) J)
    (hJ' : StratModel facts (exStrata'.map (srcLayer plainSetting testEnv exRules')) J') (hout : ∀ p, p ∉ exStrata'.flatten → ∀ t, J' p t ↔ J p t)
    (t : Tup (Val Empty)) : J' "q" t ↔ J "q" t :=
  (c85_partial plainSetting plainSetting_local testEnv exRels exRules exRules' _ exStrata exStrata' exTransform exOk exStrat exStrat'
    (fun p => by simp [exStrata, exStrata']; tauto) exPass facts facts J J' (fun _ _ _ => Iff.rfl) hJ hJ' hout "q" (by decide)).1
    (fun pat d h => by rcases (ex_onDemand _ _ _).1 h with ⟨h, _⟩ | ⟨h, _⟩ <;> exact absurd h (by decide)) t

/-- The added rules of the example can be planned. -/
example : ∀ r' ∈ exRules', ∀ d ∈ ["d#blocked#b", "d#path#bf"], headPred r'.head = some d → Plannable r' :=
  c85_demand_rules_bound exRels exRules exRules' _ exTransform (by decide) (ex_cases (by decide) (by decide) (by decide) (by decide))
    (ex_cases (by simp [exRules, assignsOf]) (by simp [exRules, assignsOf]) (by simp [exRules, assignsOf]) (by simp [exRules, assignsOf]))

/-- A pattern of the wrong length is rejected. -/
example : demandTransform [⟨"path", 2, some "b"⟩] exRules = .undef :=
  (c85_rejects _ _).2 ⟨_, List.mem_cons_self, "b", rfl, fun ⟨pat, h1, h2⟩ => by
    have := congrArg List.length h1
    simp [h2] at this⟩

/-- And both programs have models. -/
example (facts : Interp (Tup (Val Empty))) : ∃ J J', StratModel facts (exStrata.map (srcLayer plainSetting testEnv exRules)) J ∧
    StratModel facts (exStrata'.map (srcLayer plainSetting testEnv exRules')) J' ∧ ∀ p, p ∉ exStrata'.flatten → ∀ t, J' p t ↔ J p t := by
  obtain ⟨J, hJ, _⟩ := c85_has_model plainSetting plainSetting_local testEnv exRules exStrata exStrat facts (fun _ _ => False)
  obtain ⟨J', hJ', ho⟩ := c85_has_model plainSetting plainSetting_local testEnv exRules' exStrata' exStrat' facts J
  exact ⟨J, J', hJ, hJ', ho⟩

/-! ## What is not kept -/

private abbrev lostRels : List RelDecl := [⟨"f", 1, some "b"⟩, ⟨"h", 2, some "bf"⟩, ⟨"g", 1, some "b"⟩]

/-- `q(x, y) :- r(x), not f(x), h(x, y), g(y)`, `g(y) :- b(y)`. -/
private abbrev lostRules : List (SRule Empty) := [
  { head := .atom ⟨"q", [V "x", V "y"]⟩, body := [at1 "r" [V "x"], ng "f" [V "x"], at1 "h" [V "x", V "y"], at1 "g" [V "y"]] },
  { head := .atom ⟨"g", [V "y"]⟩, body := [at1 "b" [V "y"]] }]

private abbrev lostRules' : List (SRule Empty) := [
  { head := .atom ⟨"g", [V "y"]⟩, body := [at1 "b" [V "y"], at1 "d#g#b" [V "y"]] },
  { head := .atom ⟨"d#f#b", [V "x"]⟩, body := [at1 "r" [V "x"]] },
  { head := .atom ⟨"d#h#bf", [V "x"]⟩, body := [at1 "r" [V "x"]] },
  { head := .atom ⟨"d#g#b", [V "y"]⟩, body := [at1 "r" [V "x"], at1 "f" [V "x"], at1 "h" [V "x", V "y"]] },
  { head := .atom ⟨"q", [V "x", V "y"]⟩, body := [at1 "r" [V "x"], ng "f" [V "x"], at1 "h" [V "x", V "y"], at1 "g" [V "y"]] }]

private abbrev lostFacts : Interp (Tup (Val Empty)) := fun p t =>
  (p, t) ∈ [("r", flat [i 1]), ("h", flat [i 1, i 2]), ("b", flat [i 2])]

private abbrev lostStrata : List (List String) := [["r"], ["f"], ["h"], ["b"], ["g"], ["q"]]
private abbrev lostStrata' : List (List String) := [["r"], ["d#f#b"], ["f"], ["d#h#bf"], ["h"], ["b"], ["d#g#b"], ["g"], ["q"]]

/-- **C85 is false in general, negated atoms**: a negated on-demand atom that is looked up before others is a positive atom in the rules for what the
others are asked for. Facts of the query `q` are lost. -/
theorem c85_negated_refuted : ∃ (rels : List RelDecl) (rules rules' : List (SRule Empty)) (ds : List String) (strata strata' : List (List String))
    (facts : Interp (Tup (Val Empty))), demandTransform rels rules = .ok (ds, rules') ∧ Stratified rules strata ∧ Stratified rules' strata' ∧
    (∀ pat d, ¬ OnDemand rels "q" pat d) ∧
    ∀ J J', StratModel facts (strata.map (srcLayer plainSetting testEnv rules)) J → StratModel facts (strata'.map (srcLayer plainSetting testEnv rules')) J' →
      J "q" (flat [i 1, i 2]) ∧ ¬ J' "q" (flat [i 1, i 2]) := by
  have hs : Stratified lostRules lostStrata := strat_of_check (by decide +kernel)
  have hs' : Stratified lostRules' lostStrata' := strat_of_check (by decide +kernel)
  refine ⟨lostRels, lostRules, lostRules', _, lostStrata, lostStrata', lostFacts, rfl, hs, hs', ?_, ?_⟩
  · intro pat d h
    rw [onDemand_iff (A := [("g", ⟨[true], "d#g#b"⟩), ("h", ⟨[true, false], "d#h#bf"⟩), ("f", ⟨[true], "d#f#b"⟩)]) rfl] at h
    simp at h
  · intro J J' hJ hJ'
    constructor
    · have hf : ∀ p ∈ lostStrata.flatten, ∀ t, J p t → p ≠ "f" := by
        refine model_induction (Q := fun p _ => p ≠ "f") plainSetting_local hs hJ ?_ ?_
        · rintro p _ t ht rfl
          simp [lostFacts] at ht
        · intro r hr p _ hp σ _ _ t _
          simp only [List.mem_cons, List.not_mem_nil, or_false] at hr
          rcases hr with rfl | rfl <;> simp only [headPred, Option.some.injEq] at hp <;> subst hp <;> decide
      have hg : J "g" (flat [i 2]) := by
        refine model_closed plainSetting_local hs hJ (r := lostRules[1]) (by simp) rfl (by decide) (σ := fun _ => i 2) ?_ ⟨.normal, rfl, rfl⟩
        intro l hl
        simp only [List.getElem_cons_succ, List.getElem_cons_zero, List.mem_singleton] at hl
        subst hl
        exact model_facts hJ (by decide) (by simp [lostFacts, Term.val])
      refine model_closed plainSetting_local hs hJ (r := lostRules[0]) (by simp) rfl (by decide) (σ := fun x => if x = "x" then i 1 else i 2) ?_ ⟨.normal, rfl, rfl⟩
      intro l hl
      simp only [List.getElem_cons_zero, List.mem_cons, List.not_mem_nil, or_false] at hl
      rcases hl with rfl | rfl | rfl | rfl
      · exact model_facts hJ (by decide) (by simp [lostFacts, Term.val])
      · exact fun h => hf "f" (by decide) _ h rfl
      · exact model_facts hJ (by decide) (by simp [lostFacts, Term.val])
      · exact hg
    · intro h
      refine absurd (by decide) (model_induction (Q := fun p _ => p ∉ ["f", "d#g#b", "g", "q"]) plainSetting_local hs' hJ' ?_ ?_ "q" (by decide) _ h)
      · intro p _ t ht
        simp only [lostFacts, List.mem_cons, Prod.mk.injEq, List.not_mem_nil, or_false] at ht
        rcases ht with ⟨rfl, _⟩ | ⟨rfl, _⟩ | ⟨rfl, _⟩ <;> decide
      · intro r hr p _ hp σ _ hQ t _
        simp only [List.mem_cons, List.not_mem_nil, or_false] at hr
        rcases hr with rfl | rfl | rfl | rfl | rfl <;> simp only [headPred, Option.some.injEq] at hp <;> subst hp
        · exact absurd (hQ ⟨"d#g#b", [V "y"]⟩ (by simp) (by decide)) (by decide)
        · decide
        · decide
        · exact absurd (hQ ⟨"f", [V "x"]⟩ (by simp) (by decide)) (by decide)
        · exact absurd (hQ ⟨"g", [V "y"]⟩ (by simp) (by decide)) (by decide)

private abbrev noneRules : List (SRule Empty) := [
  { head := .atom ⟨"q", [V "x", V "y"]⟩, body := [at1 "f" [V "x", V "y"]] },
  { head := .atom ⟨"f", [V "x", V "y"]⟩, body := [at1 "e" [V "x", V "y"]] }]

private abbrev noneRules' : List (SRule Empty) := [
  { head := .atom ⟨"f", [V "x", V "y"]⟩, body := [at1 "e" [V "x", V "y"], at1 "d#f#bf" [V "x"]] },
  { head := .atom ⟨"q", [V "x", V "y"]⟩, body := [at1 "f" [V "x", V "y"]] }]

/-- **C85 is false in general, arguments that are not given**: if the arguments an on-demand relation must be given are not known where it is used, nothing
is demanded and there is no error: the query `q(x, y) :- f(x, y)` is empty. -/
theorem c85_dropped_refuted : ∃ (rels : List RelDecl) (rules rules' : List (SRule Empty)) (ds : List String) (strata strata' : List (List String))
    (facts : Interp (Tup (Val Empty))), demandTransform rels rules = .ok (ds, rules') ∧ Stratified rules strata ∧ Stratified rules' strata' ∧
    (∀ pat d, ¬ OnDemand rels "q" pat d) ∧ (∀ r ∈ rules, negOf r.body = []) ∧
    ∀ J J', StratModel facts (strata.map (srcLayer plainSetting testEnv rules)) J → StratModel facts (strata'.map (srcLayer plainSetting testEnv rules')) J' →
      J "q" (flat [i 1, i 2]) ∧ ¬ J' "q" (flat [i 1, i 2]) := by
  have hs : Stratified noneRules [["e"], ["f"], ["q"]] := strat_of_check (by decide +kernel)
  have hs' : Stratified noneRules' [["e"], ["d#f#bf"], ["f"], ["q"]] := strat_of_check (by decide +kernel)
  refine ⟨[⟨"f", 2, some "bf"⟩], noneRules, noneRules', _, _, _, fun p t => p = "e" ∧ t = flat [i 1, i 2], rfl, hs, hs', ?_, ?_, ?_⟩
  · intro pat d h
    rw [onDemand_iff (A := [("f", ⟨[true, false], "d#f#bf"⟩)]) rfl] at h
    simp at h
  · intro r hr
    simp only [List.mem_cons, List.not_mem_nil, or_false] at hr
    rcases hr with rfl | rfl <;> rfl
  · intro J J' hJ hJ'
    constructor
    · have hf : J "f" (flat [i 1, i 2]) := by
        refine model_closed plainSetting_local hs hJ (r := noneRules[1]) (by simp) rfl (by decide) (σ := fun x => if x = "x" then i 1 else i 2) ?_ ⟨.normal, rfl, rfl⟩
        intro l hl
        simp only [List.getElem_cons_succ, List.getElem_cons_zero, List.mem_singleton] at hl
        subst hl
        exact model_facts hJ (by decide) ⟨rfl, rfl⟩
      refine model_closed plainSetting_local hs hJ (r := noneRules[0]) (by simp) rfl (by decide) (σ := fun x => if x = "x" then i 1 else i 2) ?_ ⟨.normal, rfl, rfl⟩
      intro l hl
      simp only [List.getElem_cons_zero, List.mem_singleton] at hl
      subst hl
      exact hf
    · intro h
      refine absurd (by decide) (model_induction (Q := fun p _ => p ∉ ["d#f#bf", "f", "q"]) plainSetting_local hs' hJ' ?_ ?_ "q" (by decide) _ h)
      · rintro p _ t ⟨rfl, _⟩
        decide
      · intro r hr p _ hp σ _ hQ t _
        simp only [List.mem_cons, List.not_mem_nil, or_false] at hr
        rcases hr with rfl | rfl <;> simp only [headPred, Option.some.injEq] at hp <;> subst hp
        · exact absurd (hQ ⟨"d#f#bf", [V "x"]⟩ (by simp) (by decide)) (by decide)
        · exact absurd (hQ ⟨"f", [V "x", V "y"]⟩ (by simp) (by decide)) (by decide)

/-- **C85 is false in general, variables of negated atoms**: a negated atom is part of the rules for demands even where its variables are not known yet.
For `q(x, y) :- a(x), f(x, y), not b(y)`, where `f` is on demand, what `f` is asked for is `d(x) :- a(x), not b(y)`; as compiled, this derives nothing
if there is any fact `b(_)`, so that nothing is demanded and facts of `q` are lost. -/
theorem c85_unbound_negated_refuted : ∃ (rels : List RelDecl) (rules rules' : List (SRule Empty)) (ds : List String),
    demandTransform rels rules = .ok (ds, rules') ∧ (∀ r ∈ rules, CanPass rels r ∧ NegatedLast rels r) ∧
    (∀ r ∈ rules, ∀ a ∈ negOf r.body, ∀ x ∈ atomVars a, Bound r.body (fun _ => False) x) ∧
    ∃ r' ∈ rules', ∃ d ∈ ds, headPred r'.head = some d ∧ (∀ r'' ∈ rules', headPred r''.head = some d → r'' = r') ∧
    ∃ f, ruleFlow testEnv testSearch r'.head r'.body false {} = some (f, {}) ∧ ∀ t, ¬ Den (testWorld [("a", flat [i 1]), ("b", flat [i 3])]) f t := by
  have hod : ∀ p pat d, OnDemand [⟨"f", 2, some "bf"⟩] p pat d ↔ p = "f" ∧ pat = [true, false] ∧ d = "d#f#bf" := by
    intro p pat d
    rw [onDemand_iff (A := [("f", ⟨[true, false], "d#f#bf"⟩)]) rfl]
    simp
  refine ⟨[⟨"f", 2, some "bf"⟩], [{ head := .atom ⟨"q", [V "x", V "y"]⟩, body := [at1 "a" [V "x"], at1 "f" [V "x", V "y"], ng "b" [V "y"]] }],
    [{ head := .atom ⟨"d#f#bf", [V "x"]⟩, body := [at1 "a" [V "x"], ng "b" [V "y"]] },
     { head := .atom ⟨"q", [V "x", V "y"]⟩, body := [at1 "a" [V "x"], at1 "f" [V "x", V "y"], ng "b" [V "y"]] }], ["d#f#bf"], rfl, ?_, ?_,
    _, List.mem_cons_self, "d#f#bf", by simp, rfl, ?_, _, rfl, ?_⟩
  · intro r hr
    rw [List.mem_singleton] at hr
    subst hr
    constructor
    · intro a pat d ha hd
      obtain ⟨hp, _, _⟩ := (hod _ _ _).1 hd
      refine ⟨0, fun pat' d' hd' y hy => ?_⟩
      obtain ⟨_, rfl, rfl⟩ := (hod _ _ _).1 hd'
      simp only [Occurs, List.mem_cons, List.not_mem_nil, or_false, Lit.atom.injEq, Lit.neg.injEq, reduceCtorEq, false_or] at ha
      rcases ha with (rfl | rfl) | rfl
      · exact absurd hp (by decide)
      · have : y = "x" := by simpa [givenPart] using hy
        subst this
        exact .atom (a := ⟨"a", [V "x"]⟩) (by simp) (fun pat d h => absurd ((hod _ _ _).1 h).1 (by decide)) (by simp)
      · exact absurd hp (by decide)
    · intro a pat d ha hd
      simp only [List.mem_cons, List.not_mem_nil, or_false, Lit.neg.injEq, reduceCtorEq, false_or] at ha
      subst ha
      exact absurd ((hod _ _ _).1 hd).1 (by decide)
  · intro r hr a ha x hx
    rw [List.mem_singleton] at hr
    subst hr
    simp only [negOf, List.filterMap_cons, List.filterMap_nil, List.mem_singleton] at ha
    subst ha
    have : x = "y" := by simpa [atomVars, Term.var?] using hx
    subst this
    exact .atom (a := ⟨"f", [V "x", V "y"]⟩) (by simp [posOf]) (by simp [atomVars, Term.var?]) (by simp)
  · intro r'' hr'' hh
    simp only [List.mem_cons, List.not_mem_nil, or_false] at hr''
    rcases hr'' with rfl | rfl
    · rfl
    · simp [headPred] at hh
  · rintro t ⟨u, ⟨v, ⟨⟨w, hw, hv⟩, hneg⟩, _⟩, _⟩
    have : w = flat [i 1] := by simpa [Den, testWorld] using hw
    subst this
    cases hv
    exact hneg (.tup []) rfl ⟨flat [i 3], by simp [Den, testWorld], rfl⟩

private abbrev cycRules : List (SRule Empty) := [
  { head := .atom ⟨"s", [V "x"]⟩, body := [at1 "b" [V "x"]] },
  { head := .atom ⟨"q", [V "x"]⟩, body := [at1 "a" [V "x"], ng "s" [V "x"]] },
  { head := .atom ⟨"r", [V "x"]⟩, body := [at1 "q" [V "x"], at1 "s" [V "x"]] }]

private abbrev cycRules' : List (SRule Empty) := [
  { head := .atom ⟨"s", [V "x"]⟩, body := [at1 "b" [V "x"], at1 "d#s#b" [V "x"]] },
  { head := .atom ⟨"d#s#b", [V "x"]⟩, body := [at1 "a" [V "x"]] },
  { head := .atom ⟨"d#s#b", [V "x"]⟩, body := [at1 "q" [V "x"]] },
  { head := .atom ⟨"q", [V "x"]⟩, body := [at1 "a" [V "x"], ng "s" [V "x"]] },
  { head := .atom ⟨"r", [V "x"]⟩, body := [at1 "q" [V "x"], at1 "s" [V "x"]] }]

/-- **C85 is false in general, stratification**: a stratified program may be rewritten to one that is not stratified, and is then rejected:
`s(x) :- b(x)`, `q(x) :- a(x), not s(x)`, `r(x) :- q(x), s(x)`, where `s` is on demand. -/
theorem c85_stratification_refuted : ∃ (rels : List RelDecl) (rules rules' : List (SRule Empty)) (ds : List String) (strata : List (List String)),
    demandTransform rels rules = .ok (ds, rules') ∧ Stratified rules strata ∧ (∀ r ∈ rules, CanPass rels r ∧ NegatedLast rels r) ∧
    ¬ ∃ strata', Stratified rules' strata' ∧ ∀ p, p ∈ strata'.flatten ↔ p ∈ strata.flatten ∨ p ∈ ds := by
  have hs : Stratified cycRules [["a"], ["b"], ["s"], ["q"], ["r"]] := strat_of_check (by decide +kernel)
  have hod : ∀ p pat d, OnDemand [⟨"s", 1, some "b"⟩] p pat d ↔ p = "s" ∧ pat = [true] ∧ d = "d#s#b" := by
    intro p pat d
    rw [onDemand_iff (A := [("s", ⟨[true], "d#s#b"⟩)]) rfl]
    simp
  refine ⟨[⟨"s", 1, some "b"⟩], cycRules, cycRules', _, _, rfl, hs, ?_, ?_⟩
  · have ready : ∀ r ∈ cycRules, ∀ n a pat d, Occurs r.body a → OnDemand [⟨"s", 1, some "b"⟩] a.predicate pat d → Ready [⟨"s", 1, some "b"⟩] r n a := by
      intro r hr n a pat d ha _ pat' d' hd' y hy
      obtain ⟨hp, rfl, rfl⟩ := (hod _ _ _).1 hd'
      have not : ∀ p, p ≠ "s" → ∀ pat d, ¬ OnDemand [⟨"s", 1, some "b"⟩] p pat d := fun p hp pat d h => hp ((hod _ _ _).1 h).1
      simp only [List.mem_cons, List.not_mem_nil, or_false] at hr
      rcases hr with rfl | rfl | rfl <;>
        simp only [Occurs, List.mem_cons, List.not_mem_nil, or_false, Lit.atom.injEq, Lit.neg.injEq, reduceCtorEq, false_or] at ha
      · subst ha
        exact absurd hp (by decide)
      · rcases ha with rfl | rfl
        · exact absurd hp (by decide)
        · have : y = "x" := by simpa [givenPart] using hy
          subst this
          exact .atom (a := ⟨"a", [V "x"]⟩) (by simp) (not "a" (by decide)) (by simp)
      · rcases ha with rfl | rfl
        · exact absurd hp (by decide)
        · have : y = "x" := by simpa [givenPart] using hy
          subst this
          exact .atom (a := ⟨"q", [V "x"]⟩) (by simp) (not "q" (by decide)) (by simp)
    exact fun r hr => ⟨fun a pat d ha hd => ⟨0, ready r hr 0 a pat d ha hd⟩, fun a pat d _ _ n _ b pat' d' hb hd' => ready r hr n b pat' d' hb hd'⟩
  · rintro ⟨strata', hs', hn⟩
    have inn : ∀ p ∈ ["s", "q", "d#s#b"], p ∈ strata'.flatten := by
      intro p hp
      rw [hn]
      simp only [List.mem_cons, List.not_mem_nil, or_false] at hp
      rcases hp with rfl | rfl | rfl <;> simp
    obtain ⟨ks, Ds, hDs, hs1⟩ := mem_strata.1 (inn "s" (by simp))
    obtain ⟨kq, Dq, hDq, hq1⟩ := mem_strata.1 (inn "q" (by simp))
    obtain ⟨kd, Dd, hDd, hd1⟩ := mem_strata.1 (inn "d#s#b" (by simp))
    have h1 : kd ≤ ks := by
      rcases hs'.pos ks Ds hDs cycRules'[0] (by simp) "s" hs1 rfl ⟨"d#s#b", [V "x"]⟩ (by simp [posOf]) with h | h
      · obtain ⟨j, D', hj, hD', hp'⟩ := mem_take.1 h
        have := stratum_index_unique hs'.nodup hD' hDd hp' hd1
        omega
      · exact absurd (inn "d#s#b" (by simp)) h
    have h2 : kq ≤ kd := by
      rcases hs'.pos kd Dd hDd cycRules'[2] (by simp) "d#s#b" hd1 rfl ⟨"q", [V "x"]⟩ (by simp [posOf]) with h | h
      · obtain ⟨j, D', hj, hD', hp'⟩ := mem_take.1 h
        have := stratum_index_unique hs'.nodup hD' hDq hp' hq1
        omega
      · exact absurd (inn "q" (by simp)) h
    have h3 : ks < kq := by
      rcases hs'.neg kq Dq hDq cycRules'[3] (by simp) "q" hq1 rfl ⟨"s", [V "x"]⟩ (by simp [negOf]) with h | h
      · obtain ⟨j, D', hj, hD', hp'⟩ := mem_take.1 h
        have := stratum_index_unique hs'.nodup hD' hDs hp' hs1
        omega
      · exact absurd (inn "s" (by simp)) h
    omega

end Scallop.Plan
