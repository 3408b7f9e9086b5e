import Verif.Proof.StrataMain
import Verif.Props.Plan

/-!
# Compiled programs: the properties

C75: the contents of the relations of a compiled program are those the rules of the program define.
-/

namespace Scallop.Plan

open Scallop.Back Scallop.Ram

variable {F : Type}

/-- **C75 (partial)**: a program that meets the conditions of `ProgramOk` and is compiled has, after compilation, a model, and every model of what
it is compiled to is a model of the program: in every stratum every predicate holds the least set closed under the rules. -/
theorem c75_partial (G : Setting F) (hG : G.Local) (hX : G.X.ExactFloats) (E : Env F) (hO : E.Orders) (S : Search) (hS : S.Lawful) (arity : String → Nat)
    (rules : List (SRule F)) (strata : List (List String)) (facts : Interp (Tup (Val F))) (ok : ProgramOk G E arity rules strata facts)
    (ram : List (Ram.Stratum F)) (h : compileStrata E S rules strata = some ram) :
    (∃ J, StratModel facts (ram.map (ramLayer G)) J) ∧
    ∀ J, StratModel facts (ram.map (ramLayer G)) J → StratModel facts (strata.map (srcLayer G E rules)) J := by
  obtain ⟨ss, sN, c⟩ := ok.comp hS h
  exact ⟨⟨_, model_exists (J := fun _ _ => False) (c.layered ok.nodup ok.names hG)⟩, fun J hJ => Run.source ⟨hG, hX, hO, hS, ok, c, hJ⟩⟩

/-- **C75 (partial), uniqueness**: the compiled program and the program determine the contents of the predicates; they are the same. -/
theorem c75_unique_partial (G : Setting F) (hG : G.Local) (hX : G.X.ExactFloats) (E : Env F) (hO : E.Orders) (S : Search) (hS : S.Lawful)
    (arity : String → Nat) (rules : List (SRule F)) (strata : List (List String)) (facts : Interp (Tup (Val F)))
    (ok : ProgramOk G E arity rules strata facts) (ram : List (Ram.Stratum F)) (h : compileStrata E S rules strata = some ram)
    (J J' : Interp (Tup (Val F))) (hJ : StratModel facts (ram.map (ramLayer G)) J) (hJ' : StratModel facts (strata.map (srcLayer G E rules)) J')
    (p : String) (hp : p ∈ strata.flatten) (t : Tup (Val F)) : J p t ↔ J' p t := by
  have h1 := (c75_partial G hG hX E hO S hS arity rules strata facts ok ram h).2 J hJ
  obtain ⟨D, hD, hp⟩ := List.mem_flatten.mp hp
  exact model_unique (ok.layered hG) h1 hJ' (by simp) _ (List.mem_map.mpr ⟨D, hD, rfl⟩) p hp t

/-- **C75, every relation belongs to one stratum**: the relations made for negated operands, joins and reordered columns do not clash with
each other or with predicates, and every stratum reads only relations of itself and of earlier strata. -/
theorem c75_layered_partial (G : Setting F) (hG : G.Local) (E : Env F) (S : Search) (hS : S.Lawful) (arity : String → Nat)
    (rules : List (SRule F)) (strata : List (List String)) (facts : Interp (Tup (Val F))) (ok : ProgramOk G E arity rules strata facts)
    (ram : List (Ram.Stratum F)) (h : compileStrata E S rules strata = some ram) :
    (∀ (j k : Nat) st st' r, ram[j]? = some st → ram[k]? = some st' → r ∈ st.relations → r ∈ st'.relations → j = k) ∧
    ∀ (k : Nat) st u, ram[k]? = some st → u ∈ st.updates → u.target ∈ st.relations ∧
      ∀ r ∈ flowSources u.flow, ∃ (j : Nat) (st' : Ram.Stratum F), j ≤ k ∧ ram[j]? = some st' ∧ r ∈ st'.relations := by
  obtain ⟨ss, sN, c⟩ := ok.comp hS h
  refine ⟨?_, ?_⟩
  · intro j k st st' r hj hk h1 h2
    exact c.at_unique ok.nodup ok.names ((c.rel j st hj r).mp h1) ((c.rel k st' hk r).mp h2)
  · intro k st u hk hu
    refine ⟨c.own G hk _ ⟨u, hu, rfl⟩, ?_⟩
    intro r hr
    have : ∃ j, j ≤ k ∧ At strata ss sN j r := by
      rcases reads_sources (c.looks hk hu) r hr with h | ⟨j, hj, h⟩ | ⟨j, hj, h⟩
      · exact h
      · exact ⟨j, Nat.le_of_lt hj, h⟩
      · exact ⟨j, Nat.le_of_lt hj, h⟩
    obtain ⟨j, hj, h⟩ := this
    have hlt := Nat.lt_of_le_of_lt hj (List.getElem?_eq_some_iff.mp hk).1
    exact ⟨j, _, hj, List.getElem?_eq_getElem hlt, (c.rel j _ (List.getElem?_eq_getElem hlt) r).mpr h⟩

/-! ## An example -/

private abbrev i (n : Int) : Val Empty := .int .i32 n
private abbrev V (x : String) : Term String Empty := .var x
private abbrev K (n : Int) : Term String Empty := .const (i n)
private abbrev at1 (p : String) (args : List (Term String Empty)) : Lit String Empty Reduce := .atom ⟨p, args⟩
private abbrev ng (p : String) (args : List (Term String Empty)) : Lit String Empty Reduce := .neg ⟨p, args⟩

/-- No aggregates, no foreign predicates. -/
def plainSetting : Setting Empty := ⟨noExt, fun _ _ _ => False, fun _ _ _ _ _ => False⟩

theorem plainSetting_local : plainSetting.Local := fun _ _ _ _ _ _ _ _ => Iff.rfl

/-- `path` is the transitive closure of `edge`; `far` are nodes that are not connected back, the first of which is not connected to 1. -/
def pathRules : List (SRule Empty) :=
  [⟨.atom ⟨"path", [V "x", V "y"]⟩, [at1 "edge" [V "x", V "y"]], false⟩,
    ⟨.atom ⟨"path", [V "x", V "z"]⟩, [at1 "path" [V "x", V "y"], at1 "edge" [V "y", V "z"]], false⟩,
    ⟨.atom ⟨"far", [V "x", V "y"]⟩, [at1 "node" [V "x"], at1 "node" [V "y"], ng "path" [V "y", V "x"], ng "path" [V "x", K 1]], false⟩]

/-- The strata of the program. -/
def pathStrata : List (List String) := [["edge"], ["node"], ["path"], ["far"]]

/-- The number of columns. -/
def pathArity (p : String) : Nat := if p = "node" then 1 else 2

/-- The facts of the program. -/
def pathFacts : Interp (Tup (Val Empty)) := fun p t =>
  (p, t) ∈ [("edge", flat [i 1, i 2]), ("edge", flat [i 2, i 3]), ("node", flat [i 1]), ("node", flat [i 2]), ("node", flat [i 3])]

/-- Names without `#` are not made up by the compiler. -/
theorem userName_of {p : String} (h : '#' ∉ p.toList) : UserName p := by
  refine ⟨?_, ?_, ?_⟩
  · rintro n rfl
    exact h (by rw [String.toList_append]; exact List.mem_append.mpr (Or.inl (by decide)))
  · rintro n rfl
    exact h (by rw [String.toList_append]; exact List.mem_append.mpr (Or.inl (by decide)))
  · rintro q s rfl
    exact h (by rw [String.toList_append, String.toList_append]; exact List.mem_append.mpr (Or.inl (List.mem_append.mpr (Or.inr (by decide)))))

private theorem constVar_hash (j : Nat) : '#' ∈ (constVar j).toList := by
  rw [constVar, String.toList_append]
  exact List.mem_append.mpr (Or.inl (by decide))

/-- Rules of atoms and negated atoms only. -/
theorem RuleOk.plain {G : Setting F} {E : Env F} {arity : String → Nat} {body : List (Lit String F Reduce)} {head : List String}
    (hl : ∀ l ∈ body, (∃ a, l = .atom a) ∨ ∃ a, l = .neg a) (hfp : ∀ a ∈ posOf body, E.numBounded a.predicate = none)
    (ha : ∀ a ∈ posOf body ++ negOf body, E.shape a.predicate = some .normal ∧ arity a.predicate = a.args.length ∧ (atomVars a).Nodup ∧
      ∀ x ∈ atomVars a, '#' ∉ x.toList)
    (hn : ∀ a ∈ negOf body, ∀ x ∈ atomVars a, x ∈ (posOf body).flatMap atomVars) (hh : ∀ x ∈ head, x ∈ (posOf body).flatMap atomVars) :
    RuleOk (topWorld G E arity) E E.numBounded body head := by
  have has : assignsOf body = [] := by
    refine List.filterMap_eq_nil_iff.mpr fun l h => ?_
    rcases hl l h with ⟨a, rfl⟩ | ⟨a, rfl⟩ <;> rfl
  have hcon : consOf body = [] := by
    refine List.filterMap_eq_nil_iff.mpr fun l h => ?_
    rcases hl l h with ⟨a, rfl⟩ | ⟨a, rfl⟩ <;> rfl
  have hred : reducesOf body = [] := by
    refine List.filterMap_eq_nil_iff.mpr fun l h => ?_
    rcases hl l h with ⟨a, rfl⟩ | ⟨a, rfl⟩ <;> rfl
  have hb : ∀ x ∈ (posOf body).flatMap atomVars, Bound body (fun _ => False) x := by
    intro x hx
    obtain ⟨a, h1, h2⟩ := List.mem_flatMap.mp hx
    exact .atom h1 h2 (fun _ _ => id)
  have hor : ∀ a, a ∈ posOf body ∨ a ∈ negOf body → a ∈ posOf body ++ negOf body := fun a h => List.mem_append.mpr h
  refine {
    nofp := hfp
    noff := ?_
    flat := ?_
    static := fun a h _ => (ha a (hor a h)).2.2.1
    dup := fun a h _ => Or.inl (ha a (hor a (Or.inl h))).2.2.1
    red := by simp [hred]
    redOwn := by simp [hred]
    safeNeg := fun a h x hx => hb x (hn a h x hx)
    safeCon := by simp [hcon]
    safeAssign := by simp [has]
    safeHead := fun x hx => Or.inl (hb x (hh x hx))
    once := by simp [has]
    newFresh := by simp [has]
    newOnce := by simp [has]
    used := by simp [has] }
  · intro h
    rcases hl _ h with ⟨a, e⟩ | ⟨a, e⟩ <;> cases e
  · intro a h
    obtain ⟨h1, h2, h3, h4⟩ := ha a (hor a h)
    refine ⟨?_, fun j hj => h4 _ hj (constVar_hash j)⟩
    intro t ht
    obtain ⟨vs, h5, h6⟩ := ht h1
    exact ⟨vs, h5.trans h2, h6⟩

private theorem rule_cases {r : SRule Empty} (h : r ∈ pathRules) {P : SRule Empty → Prop} (h0 : P pathRules[0]) (h1 : P pathRules[1]) (h2 : P pathRules[2]) :
    P r := by
  simp only [pathRules, List.mem_cons, List.not_mem_nil, or_false] at h
  rcases h with rfl | rfl | rfl
  exacts [h0, h1, h2]

theorem pathProgram_good {G : Setting Empty} {facts : Interp (Tup (Val Empty))} (hfacts : ∀ p t, facts p t → pathFacts p t) :
    ProgramOk G testEnv pathArity pathRules pathStrata facts := by
  have hk : ∀ (k : Nat) D, pathStrata[k]? = some D → ∀ p ∈ D, (k = 0 ∧ p = "edge") ∨ (k = 1 ∧ p = "node") ∨ (k = 2 ∧ p = "path") ∨ (k = 3 ∧ p = "far") := by
    intro k D h p hp
    match k with
    | 0 | 1 | 2 | 3 => simp [pathStrata] at h; subst h; simp_all
    | k + 4 => simp [pathStrata] at h
  have hlits : ∀ r ∈ pathRules, ∀ l ∈ r.body, (∃ a, l = .atom a) ∨ ∃ a, l = .neg a := by
    intro r hr
    refine rule_cases (P := fun r => ∀ l ∈ r.body, (∃ a, l = .atom a) ∨ ∃ a, l = .neg a) hr ?_ ?_ ?_ <;> simp [pathRules]
  have hrk : ∀ (k : Nat) D, pathStrata[k]? = some D → ∀ r ∈ pathRules, ∀ p ∈ D, headPred r.head = some p →
      (k = 2 ∧ (r = pathRules[0] ∨ r = pathRules[1])) ∨ (k = 3 ∧ r = pathRules[2]) := by
    intro k D hD r hr p hp
    refine rule_cases (P := fun r => headPred r.head = some p → (k = 2 ∧ (r = pathRules[0] ∨ r = pathRules[1])) ∨ (k = 3 ∧ r = pathRules[2])) hr ?_ ?_ ?_ <;>
      intro e <;> simp [pathRules, headPred] at e <;> subst e <;> rcases hk k D hD _ hp with ⟨h1, h2⟩ | ⟨h1, h2⟩ | ⟨h1, h2⟩ | ⟨h1, h2⟩ <;>
      first
      | exact absurd h2 (by decide)
      | exact Or.inl ⟨h1, Or.inl rfl⟩
      | exact Or.inl ⟨h1, Or.inr rfl⟩
      | exact Or.inr ⟨h1, rfl⟩
  refine ⟨by decide, ?_, ?_, ?_, ?_, ?_, ?_⟩
  · intro p hp
    refine userName_of ?_
    revert p
    decide
  · intro p t h
    replace h := hfacts p t h
    simp only [pathFacts, List.mem_cons, List.not_mem_nil, or_false, Prod.mk.injEq] at h
    rcases h with ⟨rfl, rfl⟩ | ⟨rfl, rfl⟩ | ⟨rfl, rfl⟩ | ⟨rfl, rfl⟩ | ⟨rfl, rfl⟩ <;>
      exact ⟨by decide, fun _ => ⟨_, rfl, rfl⟩⟩
  · intro k D hD r hr p hp hpr
    refine ⟨?_, ?_, ?_⟩
    · refine RuleOk.plain (hlits r hr) ?_ ?_ ?_ ?_
      · exact rule_cases (P := fun r => ∀ a ∈ posOf r.body, testEnv.numBounded a.predicate = none) hr (by decide +kernel) (by decide +kernel) (by decide +kernel)
      · exact rule_cases (P := fun r => ∀ a ∈ posOf r.body ++ negOf r.body, testEnv.shape a.predicate = some .normal ∧ pathArity a.predicate = a.args.length ∧
          (atomVars a).Nodup ∧ ∀ x ∈ atomVars a, '#' ∉ x.toList) hr (by decide +kernel) (by decide +kernel) (by decide +kernel)
      · exact rule_cases (P := fun r => ∀ a ∈ negOf r.body, ∀ x ∈ atomVars a, x ∈ (posOf r.body).flatMap atomVars) hr (by decide +kernel) (by decide +kernel)
          (by decide +kernel)
      · exact rule_cases (P := fun r => ∀ x ∈ headVars r.head, x ∈ (posOf r.body).flatMap atomVars) hr (by decide +kernel) (by decide +kernel) (by decide +kernel)
    · exact rule_cases (P := fun r => HeadGood testEnv pathArity r.head) hr (Or.inl ⟨rfl, rfl⟩) (Or.inl ⟨rfl, rfl⟩) (Or.inl ⟨rfl, rfl⟩)
    · intro l hl
      rcases hlits r hr l hl with ⟨a, rfl⟩ | ⟨a, rfl⟩ <;> exact trivial
  · intro k D hD r hr p hp hpr
    rcases hrk k D hD r hr p hp hpr with ⟨rfl, rfl | rfl⟩ | ⟨rfl, rfl⟩ <;> decide +kernel
  · intro k D hD r hr p hp hpr
    rcases hrk k D hD r hr p hp hpr with ⟨rfl, rfl | rfl⟩ | ⟨rfl, rfl⟩
    · simp [pathRules, negOf]
    · simp [pathRules, negOf]
    · intro a ha
      simp only [pathRules, negOf, List.getElem_cons_succ, List.getElem_cons_zero, List.filterMap_cons, List.filterMap_nil, List.mem_cons, List.not_mem_nil,
        or_false] at ha
      rcases ha with rfl | rfl <;> exact ⟨by decide, fun _ => by decide⟩
  · intro k D hD r hr p hp hpr q hq
    exfalso
    revert hq
    exact rule_cases (P := fun r => q ∈ reducesOf r.body → False) hr (by simp [pathRules, reducesOf]) (by simp [pathRules, reducesOf])
      (by simp [pathRules, reducesOf])

theorem pathProgram_ok : ProgramOk plainSetting testEnv pathArity pathRules pathStrata pathFacts := pathProgram_good (fun _ _ h => h)

/-- The conditions are met by the program above; it is compiled to a program in which `path` holds of 1 and 3, and not of 3 and 1. -/
example : ∃ ram, compileStrata testEnv testSearch pathRules pathStrata = some ram ∧ ∀ J, StratModel pathFacts (ram.map (ramLayer plainSetting)) J →
    J "path" (flat [i 1, i 3]) ∧ ¬ J "path" (flat [i 3, i 1]) := by
  have hex : (compileStrata testEnv testSearch pathRules pathStrata).isSome := by decide +kernel
  obtain ⟨ram, hram⟩ := Option.isSome_iff_exists.mp hex
  refine ⟨ram, hram, fun J hJ => ?_⟩
  have h := (c75_partial plainSetting plainSetting_local noExt_exact testEnv testEnv_orders testSearch testSearch_lawful pathArity pathRules pathStrata pathFacts
    pathProgram_ok ram hram).2 J hJ
  have hL : ∀ D ∈ pathStrata, srcLayer plainSetting testEnv pathRules D ∈ pathStrata.map (srcLayer plainSetting testEnv pathRules) :=
    fun D hD => List.mem_map.mpr ⟨D, hD, rfl⟩
  have hedge : ∀ t, J "edge" t ↔ t = flat [i 1, i 2] ∨ t = flat [i 2, i 3] := by
    intro t
    rw [h _ (hL ["edge"] (by decide)) "edge" (by simp [srcLayer]) t]
    constructor
    · intro h
      refine h (fun p t => p = "edge" → t = flat [i 1, i 2] ∨ t = flat [i 2, i 3]) ⟨?_, ?_⟩ rfl
      · intro p _ t ht hp
        subst hp
        simp only [pathFacts, List.mem_cons, List.not_mem_nil, or_false, Prod.mk.injEq] at ht
        rcases ht with ⟨_, rfl⟩ | ⟨_, rfl⟩ | ⟨h, _⟩ | ⟨h, _⟩ | ⟨h, _⟩
        · exact Or.inl rfl
        · exact Or.inr rfl
        all_goals exact absurd h (by decide)
      · rintro d ⟨r, hr, p, hp, hpr, rfl⟩ t _ he
        simp only at he
        subst he
        exfalso
        revert hpr
        exact rule_cases (P := fun r => headPred r.head = some "edge" → False) hr (by decide) (by decide) (by decide)
    · rintro (rfl | rfl) X hX <;> exact hX.1 "edge" (by simp [srcLayer]) _ (by simp [pathFacts])
  refine ⟨?_, ?_⟩
  · rw [h _ (hL ["path"] (by decide)) "path" (by simp [srcLayer])]
    intro X hX
    have h12 : X "path" (flat [i 1, i 2]) := by
      refine hX.2 ⟨"path", _⟩ ⟨_, List.getElem_mem (n := 0) (by decide), "path", by simp, rfl, rfl⟩ _
        ⟨fun x => if x = "x" then i 1 else i 2, ?_, .normal, rfl, rfl⟩
      intro l hl
      simp only [pathRules, List.getElem_cons_zero, List.mem_singleton] at hl
      subst hl
      exact Or.inr ⟨by decide, (hedge _).mpr (Or.inl rfl)⟩
    refine hX.2 ⟨"path", _⟩ ⟨_, List.getElem_mem (n := 1) (by decide), "path", by simp, rfl, rfl⟩ _
      ⟨fun x => if x = "x" then i 1 else if x = "y" then i 2 else i 3, ?_, .normal, rfl, rfl⟩
    intro l hl
    simp only [pathRules, List.getElem_cons_succ, List.getElem_cons_zero, List.mem_cons, List.not_mem_nil, or_false] at hl
    rcases hl with rfl | rfl
    · exact Or.inl ⟨by simp [srcLayer], h12⟩
    · exact Or.inr ⟨by decide, (hedge _).mpr (Or.inr rfl)⟩
  · intro hp
    rw [h _ (hL ["path"] (by decide)) "path" (by simp [srcLayer])] at hp
    have := hp (fun p t => p = "path" → ∀ v w, t = flat [v, w] → v ≠ i 3) ⟨?_, ?_⟩ rfl (i 3) (i 1) rfl
    · exact this rfl
    · intro p _ t ht hp
      subst hp
      simp [pathFacts] at ht
    · rintro d ⟨r, hr, p, hp, hpr, rfl⟩ t ⟨σ, h1, h2⟩ he v w ht
      simp only at he
      subst he
      generalize hw : plainSetting.world _ = W at h1
      revert h2
      revert h1
      revert hpr
      refine rule_cases (P := fun r => headPred r.head = some "path" → (∀ l ∈ r.body, LitHolds W σ l) → Derives testEnv σ r.head t → v ≠ i 3) hr ?_ ?_ ?_ <;>
        subst hw
      · intro _ h1 ⟨sh, hsh, h2⟩
        cases hsh
        have h3 := h1 _ List.mem_cons_self
        rcases h3 with ⟨h3, _⟩ | ⟨_, h3⟩
        · exact absurd h3 (by decide)
        · rw [hedge] at h3
          rw [ht] at h2
          simp [arranged, flat, pathRules, Term.val] at h2 h3
          rw [h2.1]
          rcases h3 with h3 | h3 <;> rw [h3.1] <;> decide
      · intro _ h1 ⟨sh, hsh, h2⟩
        cases hsh
        have h3 := h1 _ List.mem_cons_self
        rcases h3 with ⟨_, h3⟩ | ⟨h3, _⟩
        · rw [ht] at h2
          simp [arranged, flat, pathRules, Term.val] at h2
          rw [h2.1]
          exact h3 rfl _ _ rfl
        · exact absurd (by simp [srcLayer]) h3
      · intro h3
        exact absurd h3 (by decide)

/-- **C75 is false in general**: of the two relations made for a negated atom with a repeated variable and a constant one is not placed in any
stratum, so that the rule reads a relation that does not exist. `r(x) :- q(x), not p(x, x, 1)`. -/
theorem c75_unplaced_refuted :
    ∃ ram st u, compileStrata testEnv testSearch [⟨.atom ⟨"r", [V "x"]⟩, [at1 "q" [V "x"], ng "p" [V "x", V "x", K 1]], false⟩]
        [["p"], ["q"], ["r"]] = some ram ∧ st ∈ ram ∧ u ∈ st.updates ∧ "#ntemp#1" ∈ flowSources u.flow ∧ ∀ st' ∈ ram, "#ntemp#1" ∉ st'.relations := by
  have h : ((compileStrata testEnv testSearch [⟨.atom ⟨"r", [V "x"]⟩, [at1 "q" [V "x"], ng "p" [V "x", V "x", K 1]], false⟩]
      [["p"], ["q"], ["r"]]).elim false (fun ram => ram.any (fun st => st.updates.any (fun u => decide ("#ntemp#1" ∈ flowSources u.flow))) &&
        ram.all (fun st => decide ("#ntemp#1" ∉ st.relations)))) = true := by decide +kernel
  revert h
  cases compileStrata testEnv testSearch [⟨.atom ⟨"r", [V "x"]⟩, [at1 "q" [V "x"], ng "p" [V "x", V "x", K 1]], false⟩] [["p"], ["q"], ["r"]] with
  | none => intro h; cases h
  | some ram =>
    intro h
    simp only [Option.elim_some, Bool.and_eq_true, List.any_eq_true, List.all_eq_true, decide_eq_true_eq] at h
    obtain ⟨⟨st, hst, u, hu, h1⟩, h2⟩ := h
    exact ⟨ram, st, u, rfl, hst, hu, h1, h2⟩

end Scallop.Plan
