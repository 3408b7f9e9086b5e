import Verif.Proof.BoundnessAccept
import Verif.Proof.BoundnessAgg
import Verif.Proof.BoundnessCount
import Verif.Props.Front
import Verif.Props.Plan

/-!
# Boundness analysis

C84: rules the compiler accepts derive finitely many facts from finitely many facts.
-/

namespace Scallop.Front

variable {F : Type}

/-! ## C84: accepted rules are safe -/

/-- **C84** for rules without aggregations: a rule the analysis accepts derives finitely many facts, if every relation holds finitely many facts and
foreign predicates give finitely many results for given inputs. If the head has a demand pattern, only facts whose demanded components are in a given
finite set count (there are no others to be computed). Negated atoms are arbitrary; wildcards are arguments of atoms (`Formula.Ordinary`). -/
theorem c84_partial [Finite F] (X : Ext F) (hX : X.Proper) (B : Bindings) (D : DB F) (hD : FiniteDB B D) (G : Aggs F) (V : Name → Prop)
    (demand : List Bool) (args : List (FExpr F)) (body : Formula F) (hne : body.NonEmpty) (ho : body.Ordinary B) (ha : FExpr.AllOrdinary args)
    (bs : List Name) (h : checkRule B demand args body = .ok bs) (Q : Set (Val F)) (hQ : Q.Finite) :
    {vs | DerivesProper X D G V args body vs ∧ ∀ i : Nat, demand[i]? = some true → ∀ v, vs[i]? = some v → v ∈ Q}.Finite :=
  checkRule_sound hX hD demand args body hne ho ha bs h Q hQ

/-- **C84** for rules with aggregations that are not nested and without a demand pattern: an accepted rule derives finitely many facts, and each of its
aggregations ranges over finitely many tuples, if moreover aggregates have finitely many results for finitely many values. `V` are the variables outside
the aggregations; without `where` clause, aggregations have results only for groups with at least one member (`Formula.Grouped`). -/
theorem c84_aggregations_partial [Finite F] (X : Ext F) (hX : X.Proper) (B : Bindings) (D : DB F) (hD : FiniteDB B D) (G : Aggs F) (hG : FiniteAggs G)
    (V : Name → Prop) (args : List (FExpr F)) (body : Formula F) (hne : body.NonEmpty) (hf : body.Flat B V) (ha : FExpr.AllOrdinary args)
    (hV : FExpr.AllNamesIn V args) (bs : List Name) (h : checkRule B [] args body = .ok bs) :
    {vs | DerivesGrouped X D G V args body vs}.Finite ∧ ∀ a ∈ body.aggregations, (aggregated X D G V a).Finite :=
  ⟨checkRule_flat hX hD hG args body hne hf ha hV bs h, fun a hm => checkRule_aggregated hX hD args body hne hf bs h a hm V⟩

/-- **C84, counted**: if every relation holds at most `n` facts and foreign predicates give at most `n` results, an accepted rule derives at most as many
facts as there are ways to match its atoms: `n` for an atom, products for conjunctions and sums for disjunctions. Counted are facts derived without sums that
are clipped to the range of their type (`SumsCancel`), with the demanded components as given by `q`. -/
theorem c84_count (X : Ext F) (hX : X.Proper) (hE : X.ExactFloats) (n : Nat) (B : Bindings) (D : DB F) (hD : SmallDB n B D) (G : Aggs F) (V : Name → Prop)
    (demand : List Bool) (args : List (FExpr F)) (body : Formula F) (hne : body.NonEmpty) (ho : body.Ordinary B) (ha : FExpr.AllOrdinary args)
    (bs : List Name) (h : checkRule B demand args body = .ok bs) (q : Nat → Val F) :
    ∃ L : List (List (Val F)), L.length ≤ body.count n ∧ ∀ σ vs, (∀ x, (σ x).Proper) → body.Holds X D G V σ → FExpr.AllEvalTo X σ args vs →
      body.SumsCancel X σ → FExpr.AllSumsCancel X σ args → (∀ i : Nat, demand[i]? = some true → ∀ v, vs[i]? = some v → v = q i) → vs ∈ L :=
  checkRule_count hX hE hD demand args body hne ho ha bs h q

/-- Sums of integers cancel if they are strictly between the bounds of their type (at the bounds they may have been clipped). -/
theorem c84_sums_cancel (X : Ext F) (k : IntTy) (a b : Int) (h1 : k.lo < a + b) (h2 : a + b < k.hi) : Cancels X .add (.int k a) (.int k b) := by
  constructor
  · rintro x' hx h
    cases x' <;> simp [evalBin, evalInt] at h
    rename_i k' a'
    split at h
    · rename_i hk
      subst hk
      simp [IntTy.sat] at h
      simp
      omega
    · cases h
  · rintro x' hx h
    cases x' <;> simp [evalBin, evalInt] at h
    rename_i k' a'
    split at h
    · rename_i hk
      subst hk
      simp [IntTy.sat] at h
      simp
      omega
    · cases h

/-- Differences likewise. -/
theorem c84_differences_cancel (X : Ext F) (k : IntTy) (a b : Int) (h1 : k.lo < a - b) (h2 : a - b < k.hi) : Cancels X .sub (.int k a) (.int k b) := by
  constructor
  · rintro x' hx h
    cases x' <;> simp [evalBin, evalInt] at h
    rename_i k' a'
    split at h
    · rename_i hk
      subst hk
      simp [IntTy.sat] at h
      simp
      omega
    · cases h
  · rintro x' hx h
    cases x' <;> simp [evalBin, evalInt] at h
    rename_i k' a'
    split at h
    · rename_i hk
      subst hk
      simp [IntTy.sat] at h
      simp
      omega
    · cases h

/-- Concatenations of strings always cancel. -/
theorem c84_strings_cancel (X : Ext F) (a b : String) : Cancels X .add (.string a) (.string b) := by
  constructor
  · rintro x' _ h
    cases x' <;> simp [evalBin] at h
    simp [h]
  · rintro x' _ h
    cases x' <;> simp [evalBin] at h
    simp [h]

/-- The analysis of a conjunction always ends: with an answer or an error. -/
theorem c84_ends (w : Walked) (known : List Name) (exprs : List Loc) : w.compute known exprs ≠ .panic := by
  unfold Walked.compute
  obtain ⟨s, h, _, _⟩ := bound_terminates w (markAll exprs ((w.vars.filter (fun v => known.contains v.1)).map Prod.snd) true)
  rw [h]
  simp only
  split <;> simp

/-- A rule each of whose variables, those of negated atoms apart, is an argument of an atom of a relation is accepted, if what its constraints compare can
be computed. -/
theorem c84_accepts (B : Bindings) (demand : List Bool) (args : List (FExpr F)) (fs : List (Formula F)) (hne : fs ≠ []) (hl : ∀ f ∈ fs, f.IsLit)
    (hv : ∀ x ∈ fs.flatMap Formula.posVars ++ FExpr.usedVarsAll args, ∃ p as, .atom p as ∈ fs ∧ B p = none ∧ .var x ∈ as)
    (hc : ∀ e, .constraint e ∈ fs → e.Computable) : ∃ bs, checkRule B demand args (.conj fs) = .ok bs :=
  rule_accepted B demand args fs hne hl hv hc

private abbrev x : FExpr Empty := .var (.user "x")
private abbrev y : FExpr Empty := .var (.user "y")
private abbrev z : FExpr Empty := .var (.user "z")
private abbrev w : FExpr Empty := .var (.user "w")
private def c (n : Int) : FExpr Empty := .const (.int .i32 n)

/-- Only `range` is foreign: its first two arguments are needed. -/
private def B₀ : Bindings := fun p => if p = "range#i32" then some (3, 2) else none

/-- `q(y, w) = (a(x + 1) and y == x * 2 or b(x, y)) and range(x, y, w) and not d(x, y)`. -/
private def body₀ : Formula Empty :=
  .conj [.disj [.conj [.atom "a" [.bin .add x (c 1)], .constraint (.bin .eq y (.bin .mul x (c 2)))], .atom "b" [x, y, .wild]],
    .atom "range#i32" [x, y, w], .neg "d" [x, y]]

/-- A rule with arithmetic, a disjunction, a foreign predicate and a negation meets the hypotheses of `c84_partial`. -/
example : body₀.NonEmpty ∧ body₀.Ordinary B₀ ∧ FExpr.AllOrdinary [y, w] ∧ (∃ bs, checkRule B₀ [] [y, w] body₀ = .ok bs) := by
  refine ⟨?_, ?_, ?_, ⟨_, rfl⟩⟩
  · simp [body₀, Formula.NonEmpty, Formula.NonEmpty.allNonEmpty]
  · simp [body₀, Formula.Ordinary, Formula.Ordinary.allOrdinary, FExpr.Ordinary, B₀, c, Val.Proper]
    decide
  · simp [FExpr.AllOrdinary, FExpr.Ordinary]

/-- The same with a demand pattern: `q(x, y) = y == x + 1`, the first component demanded. Without the pattern the rule is rejected. -/
example : (∃ bs, checkRule B₀ [true, false] [x, y] (.constraint (.bin .eq y (.bin .add x (c 1)))) = .ok bs) ∧
    checkRule B₀ [] [x, y] (.constraint (.bin .eq y (.bin .add x (c 1)))) = .undef := ⟨⟨_, rfl⟩, rfl⟩

/-- Databases as in `c84_partial`: finite relations, and the foreign predicate `range`. -/
example : FiniteDB (F := Empty) B₀ (fun p vs => (p = "a" ∧ vs = [.int .i32 5]) ∨
    (p = "range#i32" ∧ ∃ a b n, vs = [.int .i32 a, .int .i32 b, .int .i32 n] ∧ a ≤ n ∧ n < b)) := by
  constructor
  · intro p hp
    refine (Set.finite_singleton [Val.int .i32 5]).subset ?_
    rintro vs (⟨_, rfl⟩ | ⟨rfl, _⟩)
    · rfl
    · simp [B₀] at hp
  · intro p ar nb hp vs
    have : p = "range#i32" := by by_contra hne; simp [B₀, hne] at hp
    subst this
    simp only [B₀, if_true, Option.some.injEq, Prod.mk.injEq] at hp
    obtain ⟨rfl, rfl⟩ := hp
    intro hl
    match vs, hl with
    | [u, v], _ =>
      by_cases h : ∃ a b, u = .int .i32 a ∧ v = .int .i32 b
      · obtain ⟨a, b, rfl, rfl⟩ := h
        refine ((Set.finite_Ico a b).image (fun n => [(.int .i32 n : Val Empty)])).subset ?_
        rintro ws (⟨h, _⟩ | ⟨_, a', b', n, h, h1, h2⟩)
        · simp at h
        · simp only [List.cons_append, List.nil_append, List.cons.injEq, Val.int.injEq, true_and] at h
          obtain ⟨rfl, rfl, rfl⟩ := h
          exact ⟨n, ⟨h1, h2⟩, rfl⟩
      · refine Set.finite_empty.subset ?_
        rintro ws (⟨h', _⟩ | ⟨_, a', b', n, h', _⟩)
        · simp at h'
        · simp only [List.cons_append, List.nil_append, List.cons.injEq] at h'
          exact h ⟨a', b', h'.1, h'.2.1⟩

/-- `c84_count` at work: `q(x) = a(x + 1) or b(x)` derives at most two facts if `a` and `b` hold one each. The rule `q(x) = a(x * 0)`, which is rejected, derives all
of them from one fact. -/
example (X : Ext Empty) (hX : X.Proper) (D : DB Empty) (hD : SmallDB 1 B₀ D) (G : Aggs Empty) (V : Name → Prop) :
    (∃ L : List (List (Val Empty)), L.length ≤ 2 ∧ ∀ n : Int, -100 < n → n < 100 → (D "a" [.int .i32 (n + 1)] ∨ D "b" [.int .i32 n]) → [.int .i32 n] ∈ L) ∧
      checkRule B₀ [] [x] (.atom "a" [.bin .mul x (c 0)]) = .undef := by
  refine ⟨?_, rfl⟩
  obtain ⟨L, h1, h2⟩ := c84_count X hX (fun a => a.elim) 1 B₀ D hD G V [] [x] (.disj [.atom "a" [.bin .add x (c 1)], .atom "b" [x]])
    (by simp [Formula.NonEmpty, Formula.NonEmpty.allNonEmpty])
    (by simp [Formula.Ordinary, Formula.Ordinary.allOrdinary, FExpr.Ordinary, B₀, c, Val.Proper]; decide)
    (by simp [FExpr.AllOrdinary, FExpr.Ordinary]) _ rfl (fun _ => .bool true)
  refine ⟨L, h1, fun n hn hn' h => h2 (fun _ => .int .i32 n) _ ?_ ?_ ?_ ?_ ?_ (by simp)⟩
  · intro _
    simp [Val.Proper, IntTy.lo, IntTy.hi, IntTy.signed, IntTy.bits]
    omega
  · simp [Formula.Holds, Formula.Holds.anyHolds, FExpr.AllEvalTo, FExpr.EvalsTo, c, evalBin, evalInt, IntTy.sat, IntTy.lo, IntTy.hi, IntTy.signed, IntTy.bits]
    rw [if_neg (by omega), if_neg (by omega)]
    exact h
  · simp [FExpr.AllEvalTo, FExpr.EvalsTo]
  · simp only [Formula.SumsCancel, Formula.SumsCancel.allSumsCancel, FExpr.AllSumsCancel, FExpr.SumsCancel, c, FExpr.EvalsTo, true_and, and_true]
    rintro _ a b rfl rfl
    refine c84_sums_cancel X .i32 n 1 ?_ ?_ <;> simp [IntTy.lo, IntTy.hi, IntTy.signed, IntTy.bits] <;> omega
  · simp [FExpr.AllSumsCancel, FExpr.SumsCancel]

/-- A rule as in `c84_accepts`: `q(x, z) = a(x) and b(y, z) and x + 1 < z and not d(x, w)`. -/
example : ∃ bs, checkRule B₀ [] [x, z] (.conj [.atom "a" [x], .atom "b" [y, z], .constraint (.bin .lt (.bin .add x (c 1)) z), .neg "d" [x, w]]) = .ok bs :=
  c84_accepts B₀ [] _ _ (by simp) (by simp [Formula.IsLit]) (by
    intro n hn
    simp [Formula.posVars, FExpr.usedVarsAll, FExpr.usedVars, c] at hn
    have hx : ∃ p as, (.atom p as : Formula Empty) ∈ ([.atom "a" [x], .atom "b" [y, z], .constraint (.bin .lt (.bin .add x (c 1)) z), .neg "d" [x, w]] : List (Formula Empty)) ∧
        B₀ p = none ∧ x ∈ as := ⟨"a", [x], by simp, by decide, by simp⟩
    have hy : ∃ p as, (.atom p as : Formula Empty) ∈ ([.atom "a" [x], .atom "b" [y, z], .constraint (.bin .lt (.bin .add x (c 1)) z), .neg "d" [x, w]] : List (Formula Empty)) ∧
        B₀ p = none ∧ y ∈ as := ⟨"b", [y, z], by simp, by decide, by simp⟩
    have hz : ∃ p as, (.atom p as : Formula Empty) ∈ ([.atom "a" [x], .atom "b" [y, z], .constraint (.bin .lt (.bin .add x (c 1)) z), .neg "d" [x, w]] : List (Formula Empty)) ∧
        B₀ p = none ∧ z ∈ as := ⟨"b", [y, z], by simp, by decide, by simp⟩
    rcases hn with rfl | rfl | rfl | rfl | rfl | rfl | rfl <;> assumption) (by
    intro e he
    simp at he
    subst he
    simp [FExpr.Computable, c])

/-- Rules that are rejected: a variable of the head that does not occur in the body, one that is bound in one disjunct only, one that occurs only in a product,
and one that occurs only in a negated atom. -/
example : checkRule B₀ [] [x, y] (.atom "a" [x]) = .undef ∧ checkRule B₀ [] [x, y] (.disj [.atom "b" [x, y], .atom "a" [x]]) = .undef ∧
    checkRule B₀ [] [x] (.atom "a" [.bin .mul x (c 2)]) = .undef ∧ checkRule B₀ [] [x] (.neg "a" [x]) = .undef := ⟨rfl, rfl, rfl, rfl⟩

/-- **C84 is false of negated atoms**: a variable that occurs only in a negated atom, not in the head, is not looked at. `q(x) = a(x) and not d(x, y)` is
accepted, but every entity is a possible value of `y` that makes the body true. -/
theorem c84_negated_refuted :
    let X : Ext Empty := noExt
    let D : DB Empty := fun p vs => p = "a" ∧ vs = [.int .i32 5]
    let body : Formula Empty := .conj [.atom "a" [.var (.user "x")], .neg "d" [.var (.user "x"), .var (.user "y")]]
    (∃ bs, checkRule (fun _ => none) [] [.var (.user "x")] body = .ok bs) ∧
      ∀ (G : Aggs Empty) (V : Name → Prop), {v | ∃ σ ∈ solutions X D G V body, v = σ (.user "y")}.Infinite := by
  refine ⟨⟨_, rfl⟩, fun G V => ?_⟩
  have hinj : Function.Injective (fun n : Nat => (.entity n : Val Empty)) := fun a b h => by simpa using h
  refine (Set.infinite_range_of_injective hinj).mono ?_
  rintro _ ⟨n, rfl⟩
  refine ⟨fun v => if v = .user "y" then .entity n else .int .i32 5, ⟨?_, ?_⟩, by simp⟩
  · intro v
    by_cases h : v = .user "y"
    · simp [h, Val.Proper]
    · simp only [h, if_false, Val.Proper]; decide
  · simp [Formula.Holds, Formula.Holds.allHold, FExpr.AllEvalTo, FExpr.EvalsTo]

/-- **C84 is false of foreign predicates given a wildcard**: `q(x) = a(x) and range(_, x, 3)` is accepted although the predicate needs a value for its
first argument. -/
theorem c84_foreign_wildcard_refuted :
    let B : Bindings := fun p => if p = "range#i32" then some (3, 2) else none
    ∃ bs, checkRule (F := Empty) B [] [.var (.user "x")]
      (.conj [.atom "a" [.var (.user "x")], .atom "range#i32" [.wild, .var (.user "x"), .const (.int .i32 3)]]) = .ok bs := ⟨_, rfl⟩

/-- `q(x, n, m) = a(x), n := count(y: b(x, y)), m := count(y: b(z, y), y > 0 where z: a(z)), n < m`. -/
private def body₁ : Formula Empty :=
  .conj [.atom "a" [x], .reduce [some (.user "n")] "count" [] [.user "y"] (.atom "b" [x, y]) [] [],
    .reduce [some (.user "m")] "count" [] [.user "y"] (.conj [.atom "b" [z, y], .constraint (.bin .gt y (c 0))]) [.user "z"] [.atom "a" [z]],
    .constraint (.bin .lt (.var (.user "n")) (.var (.user "m")))]

/-- A rule with two aggregations, one with a `where` clause, meets the hypotheses of `c84_aggregations_partial`, and so does counting. Without the atom
of `y` in the second one the rule is rejected. -/
example : let V : Name → Prop := fun v => v = .user "x" ∨ v = .user "n" ∨ v = .user "m" ∨ v = .user "z"
    body₁.NonEmpty ∧ body₁.Flat B₀ V ∧ FExpr.AllOrdinary [x, .var (.user "n"), .var (.user "m")] ∧ FExpr.AllNamesIn V [x, .var (.user "n"), .var (.user "m")] ∧
      (∃ bs, checkRule B₀ [] [x, .var (.user "n"), .var (.user "m")] body₁ = .ok bs) ∧
      FiniteAggs (F := Empty) (fun op rs _ S => op = "count" ∧ ∃ l : List (List (Val Empty)), l.Nodup ∧ (∀ v, v ∈ l ↔ S v) ∧ rs = [some (.int .usize l.length)]) ∧
      checkRule B₀ [] [x] (.conj [.atom "a" [x], .reduce [some (.user "m")] "count" [] [.user "y"] (.constraint (.bin .gt y (c 0))) [.user "z"] [.atom "a" [z]]]) = .undef := by
  refine ⟨?_, ?_, ?_, ?_, ⟨_, rfl⟩, ?_, rfl⟩
  · simp [body₁, Formula.NonEmpty, Formula.NonEmpty.allNonEmpty]
  · simp only [body₁, Formula.Flat, Formula.Flat.allFlat, Formula.Ordinary, Formula.Ordinary.allOrdinary, FExpr.Ordinary, Formula.NonEmpty,
      Formula.NonEmpty.allNonEmpty, Formula.NamesIn, Formula.NamesIn.allNamesIn, FExpr.AllNamesIn, FExpr.NamesIn, c, Val.Proper, B₀]
    simp [FExpr.Ordinary]
    refine ⟨by decide, ?_⟩
    simp [Formula.Ordinary, FExpr.Ordinary, Formula.NonEmpty, Formula.NamesIn, FExpr.AllNamesIn, FExpr.NamesIn, B₀]
  · simp [FExpr.AllOrdinary, FExpr.Ordinary]
  · simp [FExpr.AllNamesIn, FExpr.NamesIn]
  · intro op vs S _
    refine Set.Subsingleton.finite ?_
    rintro _ ⟨_, l, h1, h2, rfl⟩ _ ⟨_, l', h3, h4, rfl⟩
    rw [((List.perm_ext_iff_of_nodup h1 h3).2 (fun v => (h2 v).trans (h4 v).symm)).length_eq]

/-- **C84 is false of aggregations over a demanded variable**: inside an aggregation, the demanded arguments of the head are taken to be bound by name, also
where the aggregation binds another variable of that name. `q(x, n) = a(x), n := count(x: x != "b")`, with the first component demanded, is accepted,
although all but one of the strings are to be counted. The same rule is rejected if nothing is demanded, or if the variable has another name. -/
theorem c84_shadow_refuted :
    let X : Ext Empty := noExt
    let count : String → Formula Empty := fun y => .reduce [some (.user "n")] "count" [] [.user y] (.constraint (.bin .neq (.var (.user y)) (.const (.string "b")))) [] []
    let body : String → Formula Empty := fun y => .conj [.atom "a" [.var (.user "x")], count y]
    let head : List (FExpr Empty) := [.var (.user "x"), .var (.user "n")]
    (∃ bs, checkRule (fun _ => none) [true, false] head (body "x") = .ok bs) ∧ checkRule (fun _ => none) [] head (body "x") = .undef ∧
      checkRule (fun _ => none) [true, false] head (body "y") = .undef ∧
      ∀ (D : DB Empty) (G : Aggs Empty) (V : Name → Prop), (aggregated X D G V (count "x")).Infinite := by
  refine ⟨⟨_, rfl⟩, rfl, rfl, fun D G V => ?_⟩
  have hinj : Function.Injective (fun n : Nat => [(.string (String.ofList (List.replicate n 'a')) : Val Empty)]) := fun a b h => by
    simp only [List.cons.injEq, Val.string.injEq, and_true] at h
    have := congrArg (fun s : String => s.toList.length) h
    simpa using this
  refine (Set.infinite_range_of_injective hinj).mono ?_
  rintro _ ⟨n, rfl⟩
  refine ⟨fun _ => .string (String.ofList (List.replicate n 'a')), fun _ => trivial, ?_, by simp [Formula.Holds.allHold], rfl⟩
  simp only [Formula.Holds, FExpr.EvalsTo]
  refine ⟨_, _, rfl, rfl, ?_⟩
  have : String.ofList (List.replicate n 'a') ≠ "b" := by
    intro h
    have h := congrArg String.toList h
    simp only [String.toList_ofList] at h
    have hb : 'b' ∈ List.replicate n 'a' := by rw [h]; decide
    simp [List.mem_replicate] at hb
  simp [evalBin, this]

end Scallop.Front
