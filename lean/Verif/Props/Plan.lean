import Verif.Proof.PlanRule
import Verif.Proof.PlanOrder
import Verif.Props.Back

/-!
# Query plans and dataflows: the properties

C48 (permutations of columns), C70 (the search for the order of the atoms), C71 (what a plan checks), C72 (dataflows compute plans),
C73 (updates compute rules), C74 (operands of cursor operators are sorted).
-/

namespace Scallop.Plan

open Scallop.Back Scallop.Ram

variable {F : Type}

/-! ## Test data -/

private abbrev i (n : Int) : Val Empty := .int .i32 n
private abbrev V (x : String) : Term String Empty := .var x
private abbrev K (n : Int) : Term String Empty := .const (i n)
private abbrev at1 (p : String) (args : List (Term String Empty)) : Lit String Empty Reduce := .atom ⟨p, args⟩

/-- `file` is read from a file, `range` is a foreign predicate with two bound arguments; sets are iterated as they are listed. -/
def testEnv : Env Empty where
  static := fun p => some (p == "file")
  indexed := fun _ => false
  numBounded := fun p => if p = "range" then some 2 else none
  shape := fun _ => some .normal
  magic := fun _ => false
  hashOrder := id
  sortOrder := id

/-- A search that keeps everything in the order given. -/
def testSearch : Search where
  sort := id
  pop := fun q => match q with | [] => none | s :: q => some (s, q)

theorem testEnv_orders : testEnv.Orders := ⟨fun _ => List.Perm.refl _, fun _ => List.Perm.refl _⟩

theorem testSearch_lawful : testSearch.Lawful := by
  refine ⟨fun _ => List.Perm.refl _, ?_, rfl⟩
  intro q hq
  cases q with
  | nil => exact absurd rfl hq
  | cons s q => exact ⟨s, q, rfl, List.Perm.refl _⟩

/-- A world given by a list of facts, without foreign predicates and aggregations. -/
def testWorld (facts : List (String × Tup (Val Empty))) : World Empty where
  X := noExt
  I := fun p t => (p, t) ∈ facts
  Fp := fun _ _ _ => False
  Red := fun _ _ _ _ => False

/-! ## C48: permutations of columns -/

/-- **C48 (permuting and projecting back)**: the columns `vs` of a relation brought into a shape `g` that contains them all, and projected back,
give the tuple one started with. -/
theorem c48_readback (X : Ext F) (vs : List String) (hn : vs.Nodup) (g : VTuple) (π : Perm) (seen : List Nat) (e e' : Expr F)
    (hp : permutation (vs.map (Term.var (F := F))) [] g = some (π, seen)) (he : permExpr π = some e)
    (hback : projection g (.tup (vs.map .val)) = some e') (ws : List (Val F)) (hl : ws.length = vs.length) :
    ∃ u, e.eval X (flat ws) = .ok u ∧ e'.eval X u = .ok (flat ws) := by
  obtain ⟨σ, rfl⟩ := exists_asg hn hl
  obtain ⟨u, hu, hr⟩ := permutation_rep (X := X) σ hp he
  have : (vs.map (Term.var (F := F))).map (Term.val σ) = vs.map σ := by rw [List.map_map]; rfl
  rw [this] at hu
  refine ⟨u, hu, ?_⟩
  rw [eval_projection hr hback, evalV_vals]

/-- So that different facts remain different. -/
theorem c48_injective (X : Ext F) (vs : List String) (hn : vs.Nodup) (g : VTuple) (π : Perm) (seen : List Nat) (e e' : Expr F)
    (hp : permutation (vs.map (Term.var (F := F))) [] g = some (π, seen)) (he : permExpr π = some e)
    (hback : projection g (.tup (vs.map .val)) = some e') (ws ws' : List (Val F)) (hl : ws.length = vs.length) (hl' : ws'.length = vs.length)
    (h : e.eval X (flat ws) = e.eval X (flat ws')) : ws = ws' := by
  obtain ⟨u, h1, h2⟩ := c48_readback X vs hn g π seen e e' hp he hback ws hl
  obtain ⟨u', h1', h2'⟩ := c48_readback X vs hn g π seen e e' hp he hback ws' hl'
  rw [h1, h1', Outcome.ok.injEq] at h
  subst h
  rw [h2, Outcome.ok.injEq] at h2'
  simp only [flat, Tup.tup.injEq] at h2'
  have : ∀ {a b : List (Val F)}, a.map (Tup.val) = b.map Tup.val → a = b := by
    intro a b hab
    have := congrArg (List.map (fun t : Tup (Val F) => match t with | .val v => v | .tup _ => .bool true)) hab
    simpa [List.map_map, Function.comp_def] using this
  exact this h2'

/-- The columns `x, y, z` brought into the shape `(z, (x, y))`. -/
example :
    permutation ([V "x", V "y", V "z"]) [] (.tup [.val "z", .tup [.val "x", .val "y"]]) = some (.tup [.val 2, .tup [.val 0, .val 1]], [1, 0, 2]) ∧
    (permExpr (.tup [.val 2, .tup [.val 0, .val 1]]) : Option (Expr Empty)) = some (.tuple [.access [2], .tuple [.access [0], .access [1]]]) ∧
    (projection (.tup [.val "z", .tup [.val "x", .val "y"]]) (.tup [.val "x", .val "y", .val "z"]) : Option (Expr Empty)) =
      some (.tuple [.access [1, 0], .access [1, 1], .access [0]]) := by
  decide +kernel

/-- **C48 (order)**: a permutation the compiler takes for order preserving, so that no permuted copy of the relation is made, does preserve the
order: the image of a sorted relation is sorted. -/
theorem c48_order_preserving (S : Store F) (π : Perm) (e : Expr F) (he : permExpr π = some e) (ho : orderPreserving π = true)
    (l : List (Tup (Val F))) (hl : SortedBy S.cmp l) : SortedBy S.cmp (l.filterMap (S.eval? e)) :=
  hl.map (fun _ _ _ _ ht hu hle => orderPreserving_le S.cmp ho he ht hu hle)

example : orderPreserving (.tup [.val 0, .tup [.val 1, .val 2]]) = true ∧ orderPreserving (.tup [.val 1, .val 0]) = false := by decide +kernel

/-- The order of integers, for examples; all other values count as zero. -/
def testCmp (a b : Val Empty) : Ordering := compare (match a with | .int _ n => n | _ => 0) (match b with | .int _ n => n | _ => 0)

/-- **C48 does not extend to strictness**: the image of a relation without repetitions under an order preserving permutation (here: of the first
of two columns) may contain repetitions. -/
theorem c48_repetitions :
    let l : List (Tup (Val Empty)) := [flat [i 1, i 1], flat [i 1, i 2]]
    orderPreserving (.tup [.val 0]) = true ∧ l.Nodup ∧ SortedBy testCmp l ∧
      (l.map (fun t => Expr.eval noExt (.tuple [.access [0]]) t)) = [.ok (flat [i 1]), .ok (flat [i 1])] := by
  refine ⟨by decide +kernel, by decide +kernel, ?_, by decide +kernel⟩
  unfold SortedBy
  decide +kernel

/-! ## C70: the order of the atoms -/

/-- **C70 (the search ends)**: the search for an order of `n` atoms ends with an order in which every atom occurs exactly once, for every width of
the beam, however states of the same weight are sorted. -/
theorem c70_search (S : Search) (hS : S.Lawful) (n beam : Nat) (hb : 0 < beam) :
    ∃ order, atomOrder S n beam = some order ∧ order.Perm (List.range n) := atomOrder_spec hS hb

/-- **C70 (the plan)**: every rule without foreign predicates has a plan, which looks up each atom of the rule exactly once and requires each of
its negated atoms to be absent. -/
theorem c70_plan (S : Search) (hS : S.Lawful) (nb : String → Option Nat) (body : List (Lit String F Reduce))
    (hnofp : ∀ a ∈ posOf body, nb a.predicate = none) (hff : Lit.ff ∉ body) :
    ∃ c d, Ctx.fromRule nb body = some c ∧ queryPlan S c = some d ∧ d.scans.Perm (posOf body) ∧ d.denied = negOf body := by
  obtain ⟨c, d, h1, h2, h3, h4, _⟩ := queryPlan_scans hS hnofp hff
  exact ⟨c, d, h1, h2, h3, h4⟩

/-- The body of `r(x, w) :- p(x, y), q(y, z), not s(x), z > 1, w := x + z`. -/
def testBody : List (Lit String Empty Reduce) :=
  [at1 "p" [V "x", V "y"], at1 "q" [V "y", V "z"], .neg ⟨"s", [V "x"]⟩, .cbin .gt (V "z") (K 1), .assign "w" (.bin .add (V "x") (V "z"))]

example : ((Ctx.fromRule testEnv.numBounded testBody).bind (queryPlan testSearch)).map (fun d => (d.scans, d.denied, d.checks)) =
    some ([⟨"p", [V "x", V "y"]⟩, ⟨"q", [V "y", V "z"]⟩], [⟨"s", [V "x"]⟩], [.bin .gt (V "z") (K 1)]) := by
  decide +kernel

/-! ## C71: what a plan checks -/

/-- **C71 (partial)**: for rules that meet the conditions of `RuleOk`, the plan exists, is satisfied by every assignment that satisfies the body,
and by those only that satisfy all literals but assignments to variables that have another source. -/
theorem c71_partial (W : World F) (E : Env F) (S : Search) (hS : S.Lawful) (body : List (Lit String F Reduce)) (head : List String)
    (ok : RuleOk W E E.numBounded body head) :
    ∃ c d, Ctx.fromRule E.numBounded body = some c ∧ queryPlan S c = some d ∧
      (∀ σ, (∀ l ∈ body, LitHolds W σ l) → Sat W d σ) ∧ (∀ σ, Sat W d σ → ∀ l ∈ body, Kept body l → LitHolds W σ l) := by
  obtain ⟨c, d, h1, h2, _, _, h5, h6⟩ := queryPlan_good hS ok
  exact ⟨c, d, h1, h2, h5, h6⟩

/-- The facts of the examples, with those of the relations the compiled rule asks for. -/
def testFacts : List (String × Tup (Val Empty)) :=
  [("p", flat [i 1, i 2]), ("p", flat [i 3, i 4]), ("q", flat [i 2, i 5]), ("q", flat [i 4, i 7]), ("s", flat [i 3]),
    ("p#perm#(1,0)", flat [i 2, i 1]), ("p#perm#(1,0)", flat [i 4, i 3])]

private theorem noConst : ∀ x ∈ ["x", "y", "z", "w", "v"], ∀ j, constVar j ≠ x := by
  intro x hx j h
  have h' := congrArg (fun s => s.toList.head?) h
  simp only [constVar, String.toList_append] at h'
  have hc : ("const#").toList = ['c', 'o', 'n', 's', 't', '#'] := by decide
  rw [hc, List.cons_append, List.head?_cons] at h'
  simp only [List.mem_cons, List.not_mem_nil, or_false] at hx
  rcases hx with rfl | rfl | rfl | rfl | rfl <;> revert h' <;> decide

private theorem testFlat {facts : List (String × Tup (Val Empty))} {a : Atom String Empty} (vs : List String) (hvs : atomVars a = vs)
    (hv : ∀ v ∈ vs, v ∈ ["x", "y", "z", "w", "v"])
    (h : ∀ f ∈ facts, f.1 = a.predicate → ∃ ws : List (Val Empty), ws.length = a.args.length ∧ f.2 = flat ws) :
    FlatRel (testWorld facts) a ∧ NoConstNames (atomVars a) := by
  refine ⟨fun t ht => h _ ht rfl, ?_⟩
  intro j hj
  rw [hvs] at hj
  exact noConst _ (hv _ hj) j rfl

private theorem testBody_ok : RuleOk (testWorld testFacts) testEnv testEnv.numBounded testBody ["x", "w"] := by
  have hpos : posOf testBody = [⟨"p", [V "x", V "y"]⟩, ⟨"q", [V "y", V "z"]⟩] := by decide +kernel
  have hneg : negOf testBody = [⟨"s", [V "x"]⟩] := by decide +kernel
  have has : assignsOf testBody = [("w", .bin .add (V "x") (V "z"))] := by decide +kernel
  have hcon : consOf testBody = [.bin .gt (V "z") (K 1)] := by decide +kernel
  have hred : reducesOf testBody = [] := by decide +kernel
  have bx : ∀ P : String → Prop, ¬ P "x" → ¬ P "y" → Bound testBody P "x" := fun P h1 h2 =>
    .atom (a := ⟨"p", [V "x", V "y"]⟩) (by rw [hpos]; simp) (by decide) (by intro y hy; simp [atomVars, Term.var?] at hy; rcases hy with rfl | rfl <;> assumption)
  have bz : ∀ P : String → Prop, ¬ P "y" → ¬ P "z" → Bound testBody P "z" := fun P h1 h2 =>
    .atom (a := ⟨"q", [V "y", V "z"]⟩) (by rw [hpos]; simp) (by decide) (by intro y hy; simp [atomVars, Term.var?] at hy; rcases hy with rfl | rfl <;> assumption)
  have bw : ∀ P : String → Prop, ¬ P "x" → ¬ P "y" → ¬ P "z" → ¬ P "w" → Bound testBody P "w" := fun P h1 h2 h3 h4 =>
    .assign (e := .bin .add (V "x") (V "z")) (by rw [has]; simp) rfl h4
      (by intro y hy; simp [AExpr.vars, Term.var?] at hy; rcases hy with rfl | rfl; exacts [bx P h1 h2, bz P h2 h3])
  constructor
  · rw [hpos]; decide
  · decide
  · intro a ha
    rw [hpos, hneg] at ha
    simp only [List.mem_cons, List.not_mem_nil, or_false] at ha
    rcases ha with (rfl | rfl) | rfl
    · exact testFlat ["x", "y"] rfl (by decide) (by simp [testFacts]; exact ⟨⟨_, rfl, rfl⟩, ⟨_, rfl, rfl⟩⟩)
    · exact testFlat ["y", "z"] rfl (by decide) (by simp [testFacts]; exact ⟨⟨_, rfl, rfl⟩, ⟨_, rfl, rfl⟩⟩)
    · exact testFlat ["x"] rfl (by decide) (by simp [testFacts]; exact ⟨_, rfl, rfl⟩)
  · intro a ha
    rw [hpos, hneg] at ha
    simp only [List.mem_cons, List.not_mem_nil, or_false] at ha
    rcases ha with (rfl | rfl) | rfl <;> decide
  · intro a ha
    rw [hpos] at ha
    simp only [List.mem_cons, List.not_mem_nil, or_false] at ha
    rcases ha with rfl | rfl <;> intro _ <;> left <;> decide
  · rw [hred]; simp
  · rw [hred]; simp
  · rw [hneg]
    simp only [List.mem_singleton, forall_eq, atomVars, List.filterMap, Term.var?]
    exact bx _ id id
  · rw [hcon]
    simp only [List.mem_singleton, forall_eq, Con.vars, List.filterMap, Term.var?]
    exact bz _ id id
  · rw [has]
    simp only [forall_eq, AExpr.vars, List.filterMap, Term.var?, List.mem_cons, List.not_mem_nil, or_false]
    rintro x (rfl | rfl)
    exacts [bx _ id id, bz _ id id]
  · intro x hx
    simp only [List.mem_cons, List.not_mem_nil, or_false] at hx
    left
    rcases hx with rfl | rfl
    exacts [bx _ id id, bw _ id id id id]
  · rw [has]; simp
  · rw [has]
    intro a ha
    simp only [List.mem_singleton] at ha
    subst ha
    intro h; cases h
  · rw [has]; decide
  · rw [has]
    intro a ha _
    simp only [List.mem_singleton] at ha
    subst ha
    exact Or.inl (.head (by simp))

/-- The conditions are met by the rule above. -/
example : RuleOk (testWorld testFacts) testEnv testEnv.numBounded testBody ["x", "w"] := testBody_ok

/-- **C71 is false in general (1)**: an assignment to a variable that also gets a value from an atom is not checked. `r(x, y) :- p(x, y, z),
z := x + y` derives `r(1, 1)` from `p(1, 1, 5)`. -/
theorem c71_bound_assign_refuted :
    let W := testWorld [("p", flat [i 1, i 1, i 5])]
    let body := [at1 "p" [V "x", V "y", V "z"], .assign "z" (.bin .add (V "x") (V "y"))]
    ∃ f, ruleFlow testEnv testSearch (.atom ⟨"r", [V "x", V "y"]⟩) body false {} = some (f, {}) ∧ Den W f (flat [i 1, i 1]) ∧
      ¬ ∃ σ, (∀ l ∈ body, LitHolds W σ l) ∧ flat [i 1, i 1] = flat ([V "x", V "y"].map (Term.val σ)) := by
  refine ⟨.project (.leaf (.rel "p")) (.tuple [.access [0], .access [1]]), by decide +kernel, ⟨flat [i 1, i 1, i 5], by simp [Den, testWorld], rfl⟩, ?_⟩
  rintro ⟨σ, h, _⟩
  have h1 := h _ List.mem_cons_self
  have h2 := h (.assign "z" (.bin .add (V "x") (V "y"))) (by simp)
  simp only [LitHolds, testWorld, List.mem_singleton, Prod.mk.injEq, true_and, flat, List.map_cons, List.map_nil, Term.val, Tup.tup.injEq,
    List.cons.injEq, Tup.val.injEq, and_true] at h1
  obtain ⟨hx, hy, hz⟩ := h1
  simp only [LitHolds, AExpr.val, Term.val, hx, hy, hz] at h2
  exact absurd h2 (by decide +kernel)

/-- **C71 is false in general (2)**: of two assignments to a variable only the last is used. `r(x) :- p(v, y, w, z), x := v - y, x := w - z` derives
`r(7)` from `p(5, 1, 9, 2)`. -/
theorem c71_two_assigns_refuted :
    let W := testWorld [("p", flat [i 5, i 1, i 9, i 2])]
    let body := [at1 "p" [V "v", V "y", V "w", V "z"], .assign "x" (.bin .sub (V "v") (V "y")), .assign "x" (.bin .sub (V "w") (V "z"))]
    ∃ f, ruleFlow testEnv testSearch (.atom ⟨"r", [V "x"]⟩) body false {} = some (f, {}) ∧ Den W f (flat [i 7]) ∧
      ¬ ∃ σ, (∀ l ∈ body, LitHolds W σ l) ∧ flat [i 7] = flat ([V "x"].map (Term.val σ)) := by
  refine ⟨.project (.project (.leaf (.rel "p")) (.bin .sub (.access [2]) (.access [3]))) (.tuple [.access []]), by decide +kernel,
    ⟨.val (i 7), ⟨flat [i 5, i 1, i 9, i 2], by simp [Den, testWorld], by decide +kernel⟩, by decide +kernel⟩, ?_⟩
  rintro ⟨σ, h, he⟩
  have h1 := h _ List.mem_cons_self
  have h2 := h (.assign "x" (.bin .sub (V "v") (V "y"))) (by simp)
  simp only [LitHolds, testWorld, List.mem_singleton, Prod.mk.injEq, true_and, flat, List.map_cons, List.map_nil, Term.val, Tup.tup.injEq,
    List.cons.injEq, Tup.val.injEq, and_true] at h1 he
  obtain ⟨hv, hy, hw, hz⟩ := h1
  simp only [LitHolds, AExpr.val, Term.val, hv, hy, ← he] at h2
  exact absurd h2 (by decide +kernel)

/-- **C71 is false in general (3)**: an assignment whose variable is not used is not computed, so that a rule is not blocked where it is undefined.
`r(x) :- p(x), z := $f(x)` derives `r(1)` from `p(1)` though `$f(1)` is undefined. -/
theorem c71_unused_assign_refuted :
    let W := testWorld [("p", flat [i 1])]
    let body := [at1 "p" [V "x"], .assign "z" (.call "f" [V "x"])]
    ∃ f, ruleFlow testEnv testSearch (.atom ⟨"r", [V "x"]⟩) body false {} = some (f, {}) ∧ Den W f (flat [i 1]) ∧
      ¬ ∃ σ, (∀ l ∈ body, LitHolds W σ l) ∧ flat [i 1] = flat ([V "x"].map (Term.val σ)) := by
  refine ⟨.project (.project (.leaf (.rel "p")) (.access [0])) (.tuple [.access []]), by decide +kernel,
    ⟨.val (i 1), ⟨flat [i 1], by simp [Den, testWorld], by decide +kernel⟩, by decide +kernel⟩, ?_⟩
  rintro ⟨σ, h, _⟩
  have h2 := h (.assign "z" (.call "f" [V "x"])) (by simp)
  simp [LitHolds, AExpr.val, testWorld, noExt] at h2

/-- **C71 is false in general (4)**: a constraint on a variable for a new entity is not checked. `r(x) :- p(x), y := new A(x), y != y` derives `r(1)`
from `p(1)`. -/
theorem c71_new_constraint_refuted :
    let W := testWorld [("p", flat [i 1])]
    let body := [at1 "p" [V "x"], .assign "y" (.new "A" [V "x"]), .cbin .neq (V "y") (V "y")]
    ∃ f, ruleFlow testEnv testSearch (.atom ⟨"r", [V "x"]⟩) body false {} = some (f, {}) ∧ Den W f (flat [i 1]) ∧
      ¬ ∃ σ, (∀ l ∈ body, LitHolds W σ l) ∧ flat [i 1] = flat ([V "x"].map (Term.val σ)) := by
  refine ⟨.project (.project (.leaf (.rel "p")) (.access [0])) (.tuple [.access []]), by decide +kernel,
    ⟨.val (i 1), ⟨flat [i 1], by simp [Den, testWorld], by decide +kernel⟩, by decide +kernel⟩, ?_⟩
  rintro ⟨σ, h, _⟩
  have h2 := h (.assign "y" (.new "A" [V "x"])) (by simp)
  have h3 := h (.cbin .neq (V "y") (V "y")) (by simp)
  simp only [LitHolds, AExpr.val, testWorld, noExt, Outcome.ok.injEq] at h2
  simp only [LitHolds, Con.Holds, Term.val, ← h2, List.length_map, List.length_cons, List.length_nil] at h3
  exact absurd h3 (by decide +kernel)

/-- A world with foreign predicates and aggregations given by lists. -/
def testWorld' (facts : List (String × Tup (Val Empty))) (fps : List (String × List (Val Empty) × List (Val Empty)))
    (reds : List (String × String × GroupBy × Tup (Val Empty))) : World Empty where
  X := noExt
  I := fun p t => (p, t) ∈ facts
  Fp := fun n vs ws => (n, vs, ws) ∈ fps
  Red := fun a b g t => (a, b, g, t) ∈ reds

/-- **C71 is false in general (5)**: a negated foreign predicate is looked up among the relations. `r(x) :- p(x), not range(0, 5, x)` derives `r(1)`
from `p(1)` though `range(0, 5, 1)`. -/
theorem c71_negated_foreign_refuted :
    let W := testWorld' [("p", flat [i 1])] [("range", [i 0, i 5], [i 1])] []
    let body := [at1 "p" [V "x"], .neg ⟨"range", [K 0, K 5, V "x"]⟩]
    ∃ f s, ruleFlow testEnv testSearch (.atom ⟨"r", [V "x"]⟩) body false {} = some (f, s) ∧ Den W f (flat [i 1]) ∧ Solves W s ∧
      W.Fp "range" [i 0, i 5] [i 1] := by
  refine ⟨.project (.project (.bin .difference (.leaf (.rel "p")) (.leaf (.rel "#ntemp#0"))) (.access [0])) (.tuple [.access []]),
    { next := 1, negs := [("#ntemp#0", .project (.un (.find (flat [i 0, i 5])) (.project (.leaf (.rel "range"))
      (.tuple [.tuple [.access [0], .access [1]], .access [2]]))) (.tuple [.access [1]]))] }, by decide +kernel, ?_, ?_, by simp [testWorld']⟩
  · exact ⟨.val (i 1), ⟨flat [i 1], ⟨by simp [Den, testWorld'], by simp [Den, testWorld']⟩, by decide +kernel⟩, by decide +kernel⟩
  · refine ⟨by simp, ?_, by simp⟩
    intro n d h
    simp only [List.mem_singleton, Prod.mk.injEq] at h
    obtain ⟨rfl, rfl⟩ := h
    intro t
    simp [Den, testWorld']

/-- **C71 is false in general (6)**: foreign predicates applied in the same round do not see the variables of each other; a constraint on such a
variable is then not checked. `r(x, y) :- p(x), range(0, x, y), g(x), y > 3` derives `r(9, 1)`. -/
theorem c71_stale_variables_refuted :
    let E : Env Empty := { testEnv with numBounded := fun p => if p = "range" then some 2 else if p = "g" then some 1 else none }
    let W := testWorld' [("p", flat [i 9])] [("range", [i 0, i 9], [i 1]), ("g", [i 9], [])] []
    let body := [at1 "p" [V "x"], at1 "range" [K 0, V "x", V "y"], at1 "g" [V "x"], .cbin .gt (V "y") (K 3)]
    ∃ f, ruleFlow E testSearch (.atom ⟨"r", [V "x", V "y"]⟩) body false {} = some (f, {}) ∧ Den W f (flat [i 9, i 1]) ∧
      evalBin noExt .run .gt (i 1) (i 3) = .ok (.bool false) := by
  refine ⟨.project (.un (.foreignConstraint "g" [.access [0]]) (.project (.un (.foreignJoin "range" [.const (i 0), .access [0]]) (.leaf (.rel "p")))
    (.tuple [.access [0, 0], .access [1, 0]]))) (.tuple [.access [0], .access [1]]), by decide +kernel, ?_, by decide +kernel⟩
  refine ⟨flat [i 9, i 1], ⟨⟨.tup [flat [i 9], flat [i 1]], ⟨flat [i 9], [i 0, i 9], [i 1], ?_, by unfold argVals; decide +kernel, ?_, rfl⟩,
    by decide +kernel⟩, [i 9], by unfold argVals; decide +kernel, ?_⟩, by decide +kernel⟩ <;> simp [Den, testWorld']

/-- **C71 is false in general (7)**: a rule all of whose foreign predicates wait for an assignment makes the compiler panic, though it could be
computed. `r(x) :- y := 1 + 2, range(0, y, x)`. -/
theorem c71_foreign_assign_refuted :
    ruleFlow testEnv testSearch (.atom ⟨"r", [V "x"]⟩) [.assign "y" (.bin .add (K 1) (K 2)), at1 "range" [K 0, V "y", V "x"]] false {} = none := by
  decide +kernel

/-- **C71 is false in general (8)**: two new entities one of which is made from the other make the compiler panic.
`r(y, z) :- p(x), y := new A(x), z := new B(y)`. -/
theorem c71_chained_new_refuted :
    ruleFlow testEnv testSearch (.atom ⟨"r", [V "y", V "z"]⟩)
      [at1 "p" [V "x"], .assign "y" (.new "A" [V "x"]), .assign "z" (.new "B" [V "y"])] false {} = none := by
  decide +kernel

/-- **C71 is false in general (9)**: a foreign predicate one of whose inputs never gets a value is left out. `r(x) :- p(x), range(_, 0, x)` derives
`r(1)` from `p(1)` whatever `range` holds. (The analysis of C84 accepts the rule: `Front.c84_foreign_wildcard_refuted`.) -/
theorem c71_foreign_input_refuted :
    let W := testWorld' [("p", flat [i 1])] [] []
    let body := [at1 "p" [V "x"], at1 "range" [V "wc#0", K 0, V "x"]]
    ∃ f, ruleFlow testEnv testSearch (.atom ⟨"r", [V "x"]⟩) body false {} = some (f, {}) ∧ Den W f (flat [i 1]) ∧ ∀ vs ws, ¬ W.Fp "range" vs ws := by
  refine ⟨.project (.project (.leaf (.rel "p")) (.access [0])) (.tuple [.access []]), by decide +kernel, ?_, by simp [testWorld']⟩
  exact ⟨.val (i 1), ⟨flat [i 1], by simp [Den, testWorld'], by decide +kernel⟩, by decide +kernel⟩

/-! ## C72: dataflows compute plans -/

/-- **C72 (partial)**: the dataflow made for a plan that meets the conditions of `Fits` contains, for every tuple of variables asked for, exactly
the tuples of values the plan allows them, if the temporary and permuted relations asked for contain what they should. -/
theorem c72_partial (W : World F) (E : Env F) (hX : W.X.ExactFloats) (hO : E.Orders) (d : Plan F) (goal : VTuple) (hn : (leaves goal).Nodup)
    (hfit : Fits W E d (fun x => x ∈ leaves goal) false) (hsub : ∀ x ∈ leaves goal, x ∈ d.bounded) (p : DProp) (s s' : St F) (f : Dataflow F)
    (h : toRam E d goal p s = some (f, s')) (hs : Solves W s') (t : Tup (Val F)) :
    Den W f t ↔ ∃ σ, Sat W d σ ∧ t = evalV σ goal := by
  obtain ⟨_, hc⟩ := toRam_good hX hO hfit goal p s f s' (fun _ => hn) hsub (fun x _ hx => hx) h
  constructor
  · intro ht
    obtain ⟨σ, h1, h2⟩ := (hc hs).sound t ht
    exact ⟨σ, h1, h2.exact hn⟩
  · rintro ⟨σ, h1, rfl⟩
    obtain ⟨u, h2, h3⟩ := (hc hs).complete σ h1
    rwa [h3.exact hn] at h2

/-- The plan of `p(x, y), q(y, z)`. -/
def testPlan : Plan Empty := .join (.ground ⟨"p", [V "x", V "y"]⟩) (.ground ⟨"q", [V "y", V "z"]⟩)

private theorem testSolves : Solves (testWorld testFacts) { perms := [("p", .tup [.val 1, .val 0])] } := by
  refine ⟨by simp, by simp, ?_⟩
  intro p π h t
  simp only [List.mem_singleton, Prod.mk.injEq] at h
  obtain ⟨rfl, rfl⟩ := h
  have hname : permName "p" (.tup [.val 1, .val 0]) = "p#perm#(1,0)" := by decide +kernel
  have hexpr : permExpr (F := Empty) (.tup [.val 1, .val 0]) = some (.tuple [.access [1], .access [0]]) := by decide +kernel
  rw [hname, hexpr]
  simp only [testWorld, testFacts, List.mem_cons, Prod.mk.injEq, List.not_mem_nil, or_false, Option.some.injEq]
  constructor
  · intro h
    rcases h with h | h | h | h | h | h | h
    · exact absurd h.1 (by decide)
    · exact absurd h.1 (by decide)
    · exact absurd h.1 (by decide)
    · exact absurd h.1 (by decide)
    · exact absurd h.1 (by decide)
    · exact ⟨flat [i 1, i 2], _, Or.inl ⟨trivial, rfl⟩, rfl, by rw [h.2]; decide +kernel⟩
    · exact ⟨flat [i 3, i 4], _, Or.inr (Or.inl ⟨trivial, rfl⟩), rfl, by rw [h.2]; decide +kernel⟩
  · rintro ⟨u, e, hu, rfl, he⟩
    rcases hu with h | h | h | h | h | h | h
    · right; right; right; right; right; left
      rw [h.2] at he
      have : (Expr.tuple [.access [1], .access [0]]).eval noExt (flat [i 1, i 2]) = .ok (flat [i 2, i 1]) := by decide +kernel
      rw [this] at he
      exact ⟨trivial, (Outcome.ok.inj he).symm⟩
    · right; right; right; right; right; right
      rw [h.2] at he
      have : (Expr.tuple [.access [1], .access [0]]).eval noExt (flat [i 3, i 4]) = .ok (flat [i 4, i 3]) := by decide +kernel
      rw [this] at he
      exact ⟨trivial, (Outcome.ok.inj he).symm⟩
    · exact absurd h.1 (by decide)
    · exact absurd h.1 (by decide)
    · exact absurd h.1 (by decide)
    · exact absurd h.1 (by decide)
    · exact absurd h.1 (by decide)

/-- The hypotheses hold for the join of `p` and `q`, for which a permuted copy of `p` is asked for. -/
example : (∃ f, toRam testEnv testPlan (.tup [.val "x", .val "z"]) {} {} = some (f, { perms := [("p", .tup [.val 1, .val 0])] })) ∧
    Solves (testWorld testFacts) { perms := [("p", .tup [.val 1, .val 0])] } ∧
    Fits (testWorld testFacts) testEnv testPlan (fun x => x ∈ ["x", "z"]) false := by
  refine ⟨⟨.project (.bin .join (.leaf (.rel "p#perm#(1,0)")) (.leaf (.rel "q"))) (.tuple [.access [1], .access [2]]), by decide +kernel⟩,
    testSolves, ?_, ?_, ?_⟩
  · intro h
    exact absurd h (by decide +kernel)
  · obtain ⟨h1, h2⟩ := testFlat (facts := testFacts) (a := ⟨"p", [V "x", V "y"]⟩) ["x", "y"] rfl (by decide)
      (by simp [testFacts]; exact ⟨⟨_, rfl, rfl⟩, ⟨_, rfl, rfl⟩⟩)
    exact ⟨h1, h2, (fun h => by cases h), (fun _ => by decide)⟩
  · obtain ⟨h1, h2⟩ := testFlat (facts := testFacts) (a := ⟨"q", [V "y", V "z"]⟩) ["y", "z"] rfl (by decide)
      (by simp [testFacts]; exact ⟨⟨_, rfl, rfl⟩, ⟨_, rfl, rfl⟩⟩)
    exact ⟨h1, h2, (fun h => by cases h), (fun _ => by decide)⟩

/-- **C72 is false in general (1)**: two operands with the same variables neither of which is an atom are intersected by what is asked for, not by
their variables. `r() :- range(0, 5, x), range(10, 15, x)` derives `r()`. -/
theorem c72_blind_intersect_refuted :
    let W := testWorld' [("#temp#0", flat []), ("#temp#1", flat [])] [("range", [i 0, i 5], [i 1]), ("range", [i 10, i 15], [i 11])] []
    ∃ f s, ruleFlow testEnv testSearch (.atom ⟨"r", []⟩) [at1 "range" [K 0, K 5, V "x"], at1 "range" [K 10, K 15, V "x"]] false {} = some (f, s) ∧
      Solves W s ∧ Den W f (flat []) ∧ ¬ ∃ x, W.Fp "range" [i 0, i 5] [x] ∧ W.Fp "range" [i 10, i 15] [x] := by
  refine ⟨.bin .intersect (.leaf (.rel "#temp#0")) (.leaf (.rel "#temp#1")), { next := 2, temps :=
    [("#temp#0", .project (.leaf (.foreign "range" [i 0, i 5])) (.tuple [])), ("#temp#1", .project (.leaf (.foreign "range" [i 10, i 15])) (.tuple []))] },
    by decide +kernel, ⟨?_, by simp, by simp⟩, by simp [Den, testWorld'], by simp [testWorld']⟩
  have he : ∀ u : Tup (Val Empty), (Expr.tuple []).eval noExt u = .ok (flat []) := fun _ => by simp [Expr.eval, Expr.evalList, flat, Outcome.bind]
  intro n d h t
  simp only [List.mem_cons, Prod.mk.injEq, List.not_mem_nil, or_false] at h
  rcases h with ⟨rfl, rfl⟩ | ⟨rfl, rfl⟩
  · simp only [Den, testWorld', he, Outcome.ok.injEq]
    simp [eq_comm]
  · simp only [Den, testWorld', he, Outcome.ok.injEq]
    simp [eq_comm]

/-- **C72 is false in general (2)**: a constant in an atom with a repeated variable that is read from a file is compared with the wrong column.
`r(y) :- file(x, x, 1, y)` derives `r(1)` from `file(7, 7, 2, 1)`. -/
theorem c72_file_repeated_refuted :
    let W := testWorld [("file", flat [i 7, i 7, i 2, i 1])]
    let body := [at1 "file" [V "x", V "x", K 1, V "y"]]
    ∃ f, ruleFlow testEnv testSearch (.atom ⟨"r", [V "y"]⟩) body false {} = some (f, {}) ∧ Den W f (flat [i 1]) ∧
      ¬ ∃ σ, ∀ l ∈ body, LitHolds W σ l := by
  refine ⟨.project (.project (.un (.filter (.bin .eq (.access [2]) (.const (i 1)))) (.project (.un (.filter (.bin .eq (.access [0]) (.access [1])))
    (.leaf (.rel "file"))) (.tuple [.access [0], .access [2], .access [3]]))) (.access [2])) (.tuple [.access []]), by decide +kernel, ?_, ?_⟩
  · exact ⟨.val (i 1), ⟨flat [i 7, i 2, i 1], ⟨⟨flat [i 7, i 7, i 2, i 1], ⟨by simp [Den, testWorld], by decide +kernel⟩, by decide +kernel⟩,
      by decide +kernel⟩, by decide +kernel⟩, by decide +kernel⟩
  · rintro ⟨σ, h⟩
    have h1 := h _ List.mem_cons_self
    simp only [LitHolds, testWorld, List.mem_singleton, Prod.mk.injEq, true_and, flat, List.map_cons, List.map_nil, Term.val, Tup.tup.injEq,
      List.cons.injEq, Tup.val.injEq, and_true] at h1
    exact absurd h1.2.2.1 (by decide)

/-- **C72 is false in general (3)**: constraints that mention a variable twice make the equality of the columns of a repeated variable go
unchecked. `r() :- p(x, x), x > 0, x < 5` derives `r()` from `p(1, 2)`. -/
theorem c72_repeated_variable_refuted :
    let W := testWorld [("p", flat [i 1, i 2])]
    let body := [at1 "p" [V "x", V "x"], .cbin .gt (V "x") (K 0), .cbin .lt (V "x") (K 5)]
    ∃ f, ruleFlow testEnv testSearch (.atom ⟨"r", []⟩) body false {} = some (f, {}) ∧ Den W f (flat []) ∧ ¬ ∃ σ, ∀ l ∈ body, LitHolds W σ l := by
  refine ⟨.project (.un (.filter (.bin .and (.bin .gt (.access [0]) (.const (i 0))) (.bin .lt (.access [0]) (.const (i 5))))) (.leaf (.rel "p")))
    (.tuple []), by decide +kernel, ⟨flat [i 1, i 2], ⟨by simp [Den, testWorld], by decide +kernel⟩, by decide +kernel⟩, ?_⟩
  rintro ⟨σ, h⟩
  have h1 := h _ List.mem_cons_self
  simp only [LitHolds, testWorld, List.mem_singleton, Prod.mk.injEq, true_and, flat, List.map_cons, List.map_nil, Term.val, Tup.tup.injEq,
    List.cons.injEq, Tup.val.injEq, and_true] at h1
  exact absurd (h1.1.symm.trans h1.2) (by decide)

/-- **C72 is false in general (4)**: of the variables of an aggregation grouped by a formula only the grouping variables are joined, not the other
variables of the formula. `r(x) :- q(x, y), n := count(z: s(x, z) where x: t(x, y))` derives `r(1)` though the `y`s differ. -/
theorem c72_other_group_by_refuted :
    let red : Reduce := ⟨"count", ["n"], ["x"], ["y"], ["z"], "agg#body", some "agg#gb"⟩
    let W := testWorld' [("q", flat [i 1, i 7]), ("#temp#0", .tup [.val (i 1), .tup []])] []
      [("count", "agg#body", .join "agg#gb", .tup [.val (i 1), .val (i 2), .val (i 3)])]
    let body := [at1 "q" [V "x", V "y"], .reduce red ["n", "x", "z"]]
    ∃ f s, ruleFlow testEnv testSearch (.atom ⟨"r", [V "x"]⟩) body false {} = some (f, s) ∧ Solves W s ∧ Den W f (flat [i 1]) ∧
      ¬ ∃ σ, ∀ l ∈ body, LitHolds W σ l := by
  refine ⟨.project (.project (.bin .join (.leaf (.rel "#temp#0")) (.project (.leaf (.rel "q")) (.tuple [.access [0], .tuple []]))) (.access [0]))
    (.tuple [.access []]), { next := 1, temps := [("#temp#0", .project (.leaf (.reduce "count" "agg#body" (.join "agg#gb")))
      (.tuple [.access [0], .tuple []]))] }, by decide +kernel, ⟨?_, by simp, by simp⟩, ?_, ?_⟩
  · intro n d h t
    simp only [List.mem_singleton, Prod.mk.injEq] at h
    obtain ⟨rfl, rfl⟩ := h
    have he : (Expr.tuple [.access [0], .tuple []]).eval noExt (.tup [.val (i 1), .val (i 2), .val (i 3)]) = .ok (.tup [.val (i 1), .tup []]) := by
      decide +kernel
    simp only [Den, testWorld', List.mem_cons, Prod.mk.injEq, List.not_mem_nil, or_false, true_and]
    constructor
    · intro h
      rcases h with h | h
      · exact absurd h.1 (by decide)
      · exact ⟨_, rfl, by rw [h]; exact he⟩
    · rintro ⟨u, rfl, hu⟩
      right
      rw [he, Outcome.ok.injEq] at hu
      exact hu.symm
  · exact ⟨.val (i 1), ⟨.tup [.val (i 1), .tup [], .tup []], ⟨.val (i 1), .tup [], .tup [],
      ⟨.tup [.val (i 1), .tup []], by simp [Den, testWorld'], rfl, rfl⟩,
      ⟨.tup [.val (i 1), .tup []], ⟨flat [i 1, i 7], by simp [Den, testWorld'], by decide +kernel⟩, rfl, rfl⟩, rfl⟩, by decide +kernel⟩, by decide +kernel⟩
  · rintro ⟨σ, h⟩
    have h1 := h _ List.mem_cons_self
    have h2 := h _ (List.mem_cons_of_mem _ List.mem_cons_self)
    simp [LitHolds, testWorld', flat, Term.val] at h1
    simp [LitHolds, ReduceHolds, testWorld', reduceTuple, fromVars, evalV, evalVs] at h2
    have h3 := h2.2.2.1
    have hu : uniq ["y"] = ["y"] := by decide
    rw [hu] at h3
    simp only [evalV, Tup.val.injEq] at h3
    rw [h1.2] at h3
    exact absurd h3 (by decide)

/-! ## C73: updates compute rules -/

/-- The facts a head stands for under an assignment: one of the alternatives. -/
def HeadFact (σ : Asg F) : Head String F → Tup (Val F) → Prop
  | .atom a, t => t = flat (a.args.map (Term.val σ))
  | .disj as, t => ∃ a ∈ as, t = flat (a.args.map (Term.val σ))

/-- The conditions on heads: facts are stored as they are written, alternatives have the same length and no repeated variable. -/
def HeadOk (E : Env F) : Head String F → Prop
  | .atom a => E.shape a.predicate = some .normal
  | .disj [] => True
  | .disj (a :: as) => (atomVars a).Nodup ∧ ∀ b ∈ as, b.args.length = a.args.length

/-- **C73 (partial)**: the update a rule is compiled to derives every fact the rule derives, and derives a fact only if there is an assignment for
it that satisfies all literals of the body but assignments to variables that have another source. -/
theorem c73_partial (W : World F) (E : Env F) (hX : W.X.ExactFloats) (hO : E.Orders) (S : Search) (hS : S.Lawful) (head : Head String F)
    (body : List (Lit String F Reduce)) (ok : RuleOk W E E.numBounded body (headVars head)) (hh : HeadOk E head) (inPlace : Bool) (s s' : St F)
    (f : Dataflow F) (h : ruleFlow E S head body inPlace s = some (f, s')) (hs : Solves W s') :
    (∀ σ t, (∀ l ∈ body, LitHolds W σ l) → HeadFact σ head t → Den W f t) ∧
    (∀ t, Den W f t → ∃ σ, (∀ l ∈ body, Kept body l → LitHolds W σ l) ∧ HeadFact σ head t) := by
  obtain ⟨c, d, h1, h2, hfit, hsafe, h5, h6⟩ := queryPlan_good hS ok
  simp only [ruleFlow, h1, h2, Option.bind_some] at h
  have key : ∀ t, Den W f t ↔ ∃ σ, Sat W d σ ∧ HeadFact σ head t := by
    intro t
    cases head with
    | atom a => exact atomHead_corr hX hO hh hfit hsafe h hs t
    | disj as =>
      cases as with
      | nil => simp [headFlow, disjHeadFlow] at h
      | cons a as => exact disjHead_corr hX hO hh.1 hh.2 hfit hsafe h hs t
  refine ⟨fun σ t hσ ht => (key t).mpr ⟨σ, h5 σ hσ, ht⟩, fun t ht => ?_⟩
  obtain ⟨σ, h7, h8⟩ := (key t).mp ht
  exact ⟨σ, h6 σ h7, h8⟩

/-- **C73 (exact case)**: if no variable with another source is assigned to, the update derives exactly the facts of the rule. -/
theorem c73_exact (W : World F) (E : Env F) (hX : W.X.ExactFloats) (hO : E.Orders) (S : Search) (hS : S.Lawful) (head : Head String F)
    (body : List (Lit String F Reduce)) (ok : RuleOk W E E.numBounded body (headVars head)) (hh : HeadOk E head)
    (hkept : ∀ l ∈ body, Kept body l) (inPlace : Bool) (s s' : St F) (f : Dataflow F) (h : ruleFlow E S head body inPlace s = some (f, s'))
    (hs : Solves W s') (t : Tup (Val F)) : Den W f t ↔ ∃ σ, (∀ l ∈ body, LitHolds W σ l) ∧ HeadFact σ head t := by
  obtain ⟨h1, h2⟩ := c73_partial W E hX hO S hS head body ok hh inPlace s s' f h hs
  refine ⟨fun ht => ?_, fun ⟨σ, hσ, hf⟩ => h1 σ t hσ hf⟩
  obtain ⟨σ, h3, h4⟩ := h2 t ht
  exact ⟨σ, fun l hl => h3 l hl (hkept l hl), h4⟩

/-- The body of `r(x, z) :- p(x, y), q(y, z)`. -/
def joinBody : List (Lit String Empty Reduce) := [at1 "p" [V "x", V "y"], at1 "q" [V "y", V "z"]]

private theorem joinBody_ok : RuleOk (testWorld testFacts) testEnv testEnv.numBounded joinBody ["x", "z"] := by
  have hpos : posOf joinBody = [⟨"p", [V "x", V "y"]⟩, ⟨"q", [V "y", V "z"]⟩] := by decide +kernel
  have hneg : negOf joinBody = [] := by decide +kernel
  have has : assignsOf joinBody = [] := by decide +kernel
  have hcon : consOf joinBody = [] := by decide +kernel
  have hred : reducesOf joinBody = [] := by decide +kernel
  constructor
  · rw [hpos]; decide
  · decide
  · intro a ha
    rw [hpos, hneg] at ha
    simp only [List.mem_cons, List.not_mem_nil, or_false] at ha
    rcases ha with rfl | rfl
    · exact testFlat ["x", "y"] rfl (by decide) (by simp [testFacts]; exact ⟨⟨_, rfl, rfl⟩, ⟨_, rfl, rfl⟩⟩)
    · exact testFlat ["y", "z"] rfl (by decide) (by simp [testFacts]; exact ⟨⟨_, rfl, rfl⟩, ⟨_, rfl, rfl⟩⟩)
  · intro a ha
    rw [hpos, hneg] at ha
    simp only [List.mem_cons, List.not_mem_nil, or_false] at ha
    rcases ha with rfl | rfl <;> decide
  · intro a ha
    rw [hpos] at ha
    simp only [List.mem_cons, List.not_mem_nil, or_false] at ha
    rcases ha with rfl | rfl <;> intro _ <;> left <;> decide
  · rw [hred]; simp
  · rw [hred]; simp
  · rw [hneg]; simp
  · rw [hcon]; simp
  · rw [has]; simp
  · intro x hx
    simp only [List.mem_cons, List.not_mem_nil, or_false] at hx
    left
    rcases hx with rfl | rfl
    · exact .atom (a := ⟨"p", [V "x", V "y"]⟩) (by rw [hpos]; simp) (by decide) (fun _ _ => id)
    · exact .atom (a := ⟨"q", [V "y", V "z"]⟩) (by rw [hpos]; simp) (by decide) (fun _ _ => id)
  · rw [has]; simp
  · rw [has]; simp
  · rw [has]; decide
  · rw [has]; simp

/-- The hypotheses are met by `r(x, z) :- p(x, y), q(y, z)`, which needs a permuted copy of `p`; it derives `r(1, 5)` and `r(3, 7)`. -/
example : ∃ f, ruleFlow testEnv testSearch (.atom ⟨"r", [V "x", V "z"]⟩) joinBody false {} = some (f, { perms := [("p", .tup [.val 1, .val 0])] }) ∧
    (∀ t, Den (testWorld testFacts) f t ↔
      ∃ σ, (∀ l ∈ joinBody, LitHolds (testWorld testFacts) σ l) ∧ HeadFact σ (.atom ⟨"r", [V "x", V "z"]⟩) t) ∧
    Den (testWorld testFacts) f (flat [i 3, i 7]) := by
  refine ⟨.project (.bin .join (.leaf (.rel "p#perm#(1,0)")) (.leaf (.rel "q"))) (.tuple [.access [1], .access [2]]), by decide +kernel,
    fun t => c73_exact _ testEnv noExt_exact testEnv_orders testSearch testSearch_lawful (.atom ⟨"r", [V "x", V "z"]⟩) joinBody joinBody_ok rfl ?_ false {} _ _ (by decide +kernel)
      testSolves t, ?_⟩
  · intro l hl
    simp only [joinBody, List.mem_cons, List.not_mem_nil, or_false] at hl
    rcases hl with rfl | rfl <;> exact trivial
  · exact ⟨.tup [.val (i 4), .val (i 3), .val (i 7)], ⟨.val (i 4), .val (i 3), .val (i 7),
      ⟨flat [i 4, i 3], by simp [Den, testWorld, testFacts, flat], rfl, rfl⟩,
      ⟨flat [i 4, i 7], by simp [Den, testWorld, testFacts, flat], rfl, rfl⟩, rfl⟩, by decide +kernel⟩

/-- **C73 is false in general**: a disjunctive head with a repeated variable reads columns that do not exist, so that nothing is derived.
`{r(x, x, 1); r(x, x, 2)} :- p(x)`. -/
theorem c73_disjunctive_repeated_refuted :
    let W := testWorld [("p", flat [i 5])]
    let as : List (Atom String Empty) := [⟨"r", [V "x", V "x", K 1]⟩, ⟨"r", [V "x", V "x", K 2]⟩]
    ∃ d e, ruleFlow testEnv testSearch (.disj as) [at1 "p" [V "x"]] false {} = some (.project d e, {}) ∧
      Den W d (.tup [flat [i 5], flat [i 1]]) ∧ e.eval W.X (.tup [flat [i 5], flat [i 1]]) = .panic := by
  refine ⟨.un (.exclusion [flat [i 1], flat [i 2]]) (.leaf (.rel "p")), .tuple [.access [0, 0], .access [0, 1], .access [1, 0]], by decide +kernel,
    ⟨_, _, by simp [Den, testWorld], by simp, rfl⟩, by decide +kernel⟩

/-! ## C74: operands of operators with cursors -/

/-- **C74**: in the update of a rule, and in the temporary relations made for it, every join, intersection, difference, antijoin and search gets
operands sorted by the order of tuples, whatever the contents of the relations, provided relations are stored sorted. -/
theorem c74 (S : Store F) (hS : S.Lawful) (E : Env F) (Q : Search) (head : Head String F) (body : List (Lit String F Reduce)) (inPlace : Bool)
    (s s' : St F) (f : Dataflow F) (hs : s.MergeSafe S) (h : ruleFlow E Q head body inPlace s = some (f, s')) :
    MergeSafe S f ∧ s'.MergeSafe S := by
  simp only [ruleFlow, Option.bind_eq_some_iff] at h
  obtain ⟨c, _, d, _, h⟩ := h
  exact headFlow_ordered hS hs h

/-- Relations kept sorted by insertion, with the facts of the examples. -/
def testStore : Store Empty where
  X := noExt
  cmp := testCmp
  rel := fun r => if r = "p" then [flat [i 1, i 2], flat [i 3, i 4]] else if r = "q" then [flat [i 2, i 5], flat [i 4, i 7]] else []
  fp := fun _ _ => []
  red := fun _ _ _ => []
  sort := fun l => l.mergeSort (fun a b => tupCmp testCmp a b != .gt)
  same := fun a b => tupCmp testCmp a b == .eq

/-- The store meets the conditions: its order is a total preorder, so that sorting sorts. -/
theorem testStore_lawful : testStore.Lawful := by
  refine ⟨fun r => ?_, fun l => mergeSort_sorted ?_ ?_ l⟩
  · show SortedBy testCmp (if r = "p" then _ else if r = "q" then _ else _)
    split
    · unfold SortedBy; decide +kernel
    · split
      · unfold SortedBy; decide +kernel
      · exact List.Pairwise.nil
  · intro a b c
    have : ∀ x y z : Int, Chain (compare x y) (compare y z) (compare x z) := by
      intro x y z
      simp only [Chain, Int.compare_eq_eq, Int.compare_eq_lt]
      omega
    exact this _ _ _
  · intro a b
    exact Int.compare_swap _ _

/-- **C74 needs the permuted copies**: joining `p` and `q` on the second column of `p` by projecting `p` on the fly would feed the join an operand
that is not sorted. -/
theorem c74_unsorted_without_copy :
    let S : Store Empty := { testStore with rel := fun r => if r = "p" then [flat [i 1, i 4], flat [i 3, i 2]] else [] }
    SortedBy S.cmp (S.rel "p") ∧
      ¬ MergeSafe S (.bin .join (.project (.leaf (.rel "p")) (.tuple [.access [1], .access [0]])) (.leaf (.rel "q"))) := by
  refine ⟨by unfold SortedBy; decide +kernel, fun h => ?_⟩
  have := h.1.1
  revert this
  unfold SortedBy
  decide +kernel

end Scallop.Plan
