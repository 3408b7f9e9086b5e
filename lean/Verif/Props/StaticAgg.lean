import Verif.Proof.StaticAgg
import Mathlib.Data.Prod.Lex
import Mathlib.Algebra.Order.Field.Rat

/-! # C110: aggregations of compiled programs -/

namespace Scallop.SAgg

open Scallop

variable {V T W K A B O : Type}

/-- The generator accepts exactly these uses of aggregates; it panics at all others, or writes code that is not accepted. -/
theorem c110_supported (name : String) (u : Use) :
    (compiled name u).isSome ↔ name ∈ withArguments ∨ name ∈ withoutArguments ∧ u.numArgs = 0 := by
  simp only [compiled, withArguments, withoutArguments]
  constructor
  · intro h
    repeat' split at h
    all_goals simp_all
  · intro h
    simp only [List.mem_cons, List.not_mem_nil, or_false] at h
    rcases h with (rfl | rfl | rfl | rfl | rfl) | ⟨rfl | rfl | rfl | rfl, h⟩ <;> simp_all

/-- A compiled aggregation calls the aggregator that the interpreter calls, with the same settings, exactly if the use has no mark `!` or the aggregate is one of
`count`, `exists` and `top`. -/
theorem c110_settings (name : String) (u : Use) (s : Settings) (h : compiled name u = some s) :
    ∃ s', interpreted name u = some s' ∧ (s' = s ↔ u.mark = false ∨ name ∈ marked) := by
  have hs : (compiled name u).isSome := by rw [h]; rfl
  have hcases := (c110_supported name u).mp hs
  simp only [withArguments, withoutArguments, List.mem_cons, List.not_mem_nil, or_false] at hcases
  rcases hcases with (rfl | rfl | rfl | rfl | rfl) | ⟨rfl | rfl | rfl | rfl, h0⟩
  · cases h; exact ⟨_, rfl, by simp [marked]⟩
  · cases h; exact ⟨_, rfl, by simp [marked]⟩
  · cases h; exact ⟨_, rfl, by simp [marked]⟩
  · cases h; exact ⟨_, rfl, by simp [marked]⟩
  · cases h; exact ⟨_, rfl, by simp [marked]⟩
  all_goals
    simp [compiled, h0] at h
    subst h
    exact ⟨_, rfl, by simp [marked, h0]⟩

example : compiled "argmax" ⟨false, 2, []⟩ = some (.minMax false true false 2) ∧ interpreted "argmax" ⟨false, 2, []⟩ = some (.minMax false true false 2) := by decide +kernel

/-- Aggregating a whole relation: if the compiled aggregation returns, it returns the facts the interpreter returns, with the same tags and in the same order. `run` is what
an aggregator of the interpreter with given settings computes; `ea` and `eo` turn what is aggregated and the results into tuples of the interpreter, and `dec` reads results
back. -/
theorem c110_single (run : Settings → Agg.Aggregator V T) (ea : A → Tup V) (eo : O → Tup V) (dec : Tup V → Option O) (hdec : ∀ t b, dec t = some b → eo b = t)
    (name : String) (u : Use) (s : Settings) (h : compiled name u = some s) (hm : u.mark = false ∨ name ∈ marked) (d : List (List (Elem A T)))
    (out : List (List (Elem O T))) (ho : singleGroup (viaDyn ea dec (run s)) d = some out) :
    ∃ s', interpreted name u = some s' ∧
      Agg.singleGroup (run s') (d.map (List.map (dynElem ea))) = some (out.map (List.map (dynElem eo))) := by
  obtain ⟨s', h1, h2⟩ := c110_settings name u s h
  rw [h2.mpr hm] at h1
  exact ⟨s, h1, singleGroup_eq ea eo _ _ (viaDyn_eq ea eo dec hdec (run s)) d out ho⟩

/-- Aggregating by the key of each fact. -/
theorem c110_implicit [LinearOrder V] [DecidableEq K] (run : Settings → Agg.Aggregator V T) (ek : K → Tup V) (hk : Function.Injective ek) (ea : A → Tup V) (eo : O → Tup V)
    (dec : Tup V → Option O) (hdec : ∀ t b, dec t = some b → eo b = t) (name : String) (u : Use) (s : Settings) (h : compiled name u = some s)
    (hm : u.mark = false ∨ name ∈ marked) (d : List (List (Elem (K × A) T))) (out : List (List (Elem (K × O) T)))
    (ho : implicitGroup (viaDyn ea dec (run s)) d = some out) :
    ∃ s', interpreted name u = some s' ∧
      Agg.implicitGroup (run s') (d.map (List.map (dynElem (pairTup ek ea)))) = some (out.map (List.map (dynElem (pairTup ek eo)))) := by
  obtain ⟨s', h1, h2⟩ := c110_settings name u s h
  rw [h2.mpr hm] at h1
  exact ⟨s, h1, implicitGroup_eq ek hk ea eo _ _ (viaDyn_eq ea eo dec hdec (run s)) d out ho⟩

/-- Aggregating by the groups of another relation. -/
theorem c110_join [LinearOrder V] [LinearOrder K] (c : Prov T W) (run : Settings → Agg.Aggregator V T) (ek : K → Tup V) (hk : StrictMono ek) (eb : B → Tup V)
    (ea : A → Tup V) (eo : O → Tup V) (dec : Tup V → Option O) (hdec : ∀ t b, dec t = some b → eo b = t) (name : String) (u : Use) (s : Settings)
    (h : compiled name u = some s) (hm : u.mark = false ∨ name ∈ marked) (d1 : List (List (Elem (K × B) T))) (d2 : List (List (Elem (K × A) T)))
    (out : List (List (Elem (K × B × O) T))) (ho : joinGroup c (viaDyn ea dec (run s)) d1 d2 = some out) :
    ∃ s', interpreted name u = some s' ∧
      Agg.joinGroup c (run s') (d1.map (List.map (dynElem (pairTup ek eb)))) (d2.map (List.map (dynElem (pairTup ek ea)))) =
        some (out.map (List.map (dynElem (tripleTup ek eb eo)))) := by
  obtain ⟨s', h1, h2⟩ := c110_settings name u s h
  rw [h2.mpr hm] at h1
  exact ⟨s, h1, joinGroup_eq c ek hk eb ea eo _ _ (viaDyn_eq ea eo dec hdec (run s)) d1 d2 out ho⟩

/-- Compiled aggregations panic only where the interpreter does, or where a result is not of the type the compiled program expects. -/
theorem c110_no_panic [LinearOrder V] [LinearOrder K] (c : Prov T W) (dyn : Agg.Aggregator V T) (ek : K → Tup V) (hk : StrictMono ek) (eb : B → Tup V)
    (ea : A → Tup V) (dec : Tup V → Option O)
    (hty : ∀ (l : List (Elem A T)) rs, dyn (l.map (dynElem ea)) = some rs → ∀ r ∈ rs, (dec r.tuple).isSome) :
    (∀ d : List (List (Elem A T)), (Agg.singleGroup dyn (d.map (List.map (dynElem ea)))).isSome → (singleGroup (viaDyn ea dec dyn) d).isSome) ∧
    (∀ d : List (List (Elem (K × A) T)), (Agg.implicitGroup dyn (d.map (List.map (dynElem (pairTup ek ea))))).isSome →
      (implicitGroup (viaDyn ea dec dyn) d).isSome) ∧
    (∀ (d1 : List (List (Elem (K × B) T))) (d2 : List (List (Elem (K × A) T))),
      (Agg.joinGroup c dyn (d1.map (List.map (dynElem (pairTup ek eb)))) (d2.map (List.map (dynElem (pairTup ek ea))))).isSome →
      (joinGroup c (viaDyn ea dec dyn) d1 d2).isSome) :=
  ⟨singleGroup_isSome ea _ dyn (viaDyn_returns ea dec dyn hty), implicitGroup_isSome ek hk.injective ea _ dyn (viaDyn_returns ea dec dyn hty),
    joinGroup_isSome c ek hk eb ea _ dyn (viaDyn_returns ea dec dyn hty)⟩

/-- `top` works on typed facts and chooses the facts the interpreter chooses, however the heap breaks ties. -/
theorem c110_top {Q : Type} [LinearOrder Q] (pop : List (Agg.TopElem Q) → Option (Agg.TopElem Q × List (Agg.TopElem Q))) (c : Prov T Q) (k : Nat)
    (ea : A → Tup V) (l : List (Elem A T)) : Agg.topKAggregate pop c k (l.map (dynElem ea)) = (top pop c k l).map (List.map (dynElem ea)) :=
  top_eq pop c k ea l

/-- The hypothesis on keys holds for values and for pairs of such keys: turning them into tuples of the interpreter keeps their order. -/
theorem c110_keys [LinearOrder V] : StrictMono (Tup.val : V → Tup V) ∧
    ∀ {K A : Type} [LinearOrder K] [LinearOrder A] (ek : K → Tup V) (ea : A → Tup V), StrictMono ek → StrictMono ea →
      StrictMono (fun p : K ×ₗ A => pairTup ek ea (ofLex p)) :=
  ⟨val_strictMono, fun ek ea hk ha p q h => pairTup_lt ek hk ea ha _ _ (Prod.Lex.toLex_lt_toLex.mp h)⟩

/-! ### Examples -/

/-- Reads an integer back. -/
def exDec : Tup Int → Option Int
  | .val v => some v
  | .tup _ => none

/-- The aggregators on integers without the type of values bounded; others are not used. -/
def exRun (c : Prov T W) : Settings → Agg.Aggregator Int T
  | .sumProd isSum nmw n => fun l => (Agg.sumProd c ⟨-1000, 1000⟩ isSum n nmw l).map (List.map (fun e => ⟨.val e.tuple, e.tag⟩))
  | .minMax isMin argOnly nmw n => fun l => Agg.minMax c isMin argOnly n nmw l
  | _ => fun _ => none

/-- Sums by group: two groups of facts, and a group of the other relation that has none. -/
example : (∀ t b, exDec t = some b → Tup.val b = t) ∧ StrictMono (Tup.val : Int → Tup Int) ∧ compiled "sum" ⟨false, 0, []⟩ = some (.sumProd true false 0) ∧
    (joinGroup unitProv (viaDyn Tup.val exDec (exRun unitProv (.sumProd true false 0))) [[⟨((1 : Int), (7 : Int)), ()⟩, ⟨(2, 8), ()⟩, ⟨(3, 9), ()⟩]]
      [[⟨((1 : Int), (4 : Int)), ()⟩, ⟨(1, 5), ()⟩, ⟨(3, 6), ()⟩]]).map (List.map (List.map Elem.tuple)) =
      some [[(1, 7, 9), (2, 8, 0), (3, 9, 6)]] := by
  refine ⟨fun t b h => ?_, val_strictMono, by decide +kernel, by decide +kernel⟩
  cases t <;> simp_all [exDec]

/-- Grouping by keys that are facts' own first components. -/
example : (implicitGroup (viaDyn Tup.val exDec (exRun unitProv (.minMax false false false 0))) [[⟨((1 : Int), (4 : Int)), ()⟩, ⟨(1, 5), ()⟩, ⟨(3, 6), ()⟩]]).map
    (List.map (List.map Elem.tuple)) = some [[(1, 5), (1, 4), (3, 6)]] := by decide +kernel

/-! ### Where compiled programs differ -/

/-- A compiled program ignores the mark `!` of `sum` (and of `prod`, `min`, `max`, `argmin`, `argmax`, by `c110_settings`): the interpreter gives the sum of all facts, and the
compiled program one sum for each set of facts, with other tags. -/
theorem c110_mark_false : ∃ (u : Use) (s s' : Settings) (d : List (List (Elem Int ℚ))), compiled "sum" u = some s ∧ interpreted "sum" u = some s' ∧
    (singleGroup (viaDyn Tup.val exDec (exRun (minMaxProv ℚ) s)) d).map (List.map (List.map (fun e => (e.tuple, e.tag)))) =
      some [[(0, 1/2), (1, 1/2), (2, 1/4), (3, 1/4)]] ∧
    (Agg.singleGroup (exRun (minMaxProv ℚ) s') (d.map (List.map (dynElem Tup.val)))).map (List.map (List.map (fun e => (e.tuple, e.tag)))) =
      some [[(Tup.val 3, 1)]] :=
  ⟨⟨true, 0, []⟩, _, _, [[⟨1, 1/2⟩, ⟨2, 1/4⟩]], rfl, rfl, by decide +kernel, by decide +kernel⟩

/-- Aggregates the interpreter has and the generator does not: `max` with an argument panics, and so does every use of `avg`, `unique`, `string_join`, `rank` and others. -/
theorem c110_unsupported_false : (∃ u s, interpreted "max" u = some s ∧ compiled "max" u = none) ∧
    ∀ name ∈ ["disjunct", "avg", "weighted_sum", "weighted_avg", "normalize", "softmax", "string_join", "enumerate", "rank", "sort", "argsort", "unique", "uniform"],
      (WAgg.stdRegistry.lookup name).isSome ∧ ∀ u, compiled name u = none := by
  refine ⟨⟨⟨false, 1, []⟩, _, rfl, by decide +kernel⟩, fun name hn => ?_⟩
  simp only [List.mem_cons, List.not_mem_nil, or_false] at hn
  rcases hn with rfl | rfl | rfl | rfl | rfl | rfl | rfl | rfl | rfl | rfl | rfl | rfl | rfl <;> exact ⟨by decide +kernel, fun u => rfl⟩

end Scallop.SAgg
