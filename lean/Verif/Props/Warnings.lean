import Verif.Proof.Warnings
import Verif.Props.Plan

/-!
# C122: warnings about relations that nothing computes, and wildcards that are rejected
-/

namespace Scallop.Warn

/-- After any history, compiling a source prints a warning for a relation if and only if, when the source itself or one of its imports was about to be
accepted, something accepted until then or in it used the relation and nothing registered, accepted until then or in it computed it. Sources that were
rejected before do not count. -/
theorem c122_warnings (registry : List String) (es : List Event) (src : Src) (r : String) :
    r ∈ (src.compile (run registry es)).2.map Prod.fst ↔ ∃ k < (src.parts.takeWhile Prod.snd).length,
      Missing (registry ++ registered es) (accepted es ++ itemsOf (src.parts.take (k + 1))) r := by
  rw [compile_parts]
  have key : ∀ k, ((∃ l, (∃ a b, usesOf (acceptedParts es) ++ usesOf (src.parts.take (k + 1)) = a ++ (r, l) :: b ∧ r ∉ b.map Prod.fst)) ∧
      r ∉ registry ++ registered es ++ declaresOf (acceptedParts es) ++ declaresOf (src.parts.take (k + 1)) ∧ '#' ∉ r.toList) ↔
      Missing (registry ++ registered es) (accepted es ++ itemsOf (src.parts.take (k + 1))) r := by
    intro k
    have e : accepted es ++ itemsOf (src.parts.take (k + 1)) = itemsOf (acceptedParts es ++ src.parts.take (k + 1)) := by
      simp [accepted, itemsOf]
    rw [e, ← usesOf_append, List.append_assoc _ (declaresOf _), ← declaresOf_append, ← exists_last, List.mem_append, mem_declaresOf]
    unfold Missing
    constructor
    · rintro ⟨h1, h2, h3⟩
      rw [not_or] at h2
      have h4 : ∀ i ∈ itemsOf (acceptedParts es ++ src.parts.take (k + 1)), ¬ i.Computes r := fun i hi hc => h2.2 ⟨i, hi, hc⟩
      exact ⟨(mem_usesOf _ _ h4).mp h1, h2.1, h4, h3⟩
    · rintro ⟨h1, h2, h3, h4⟩
      exact ⟨(mem_usesOf _ _ h3).mpr h1, by rintro (h | ⟨i, hi, hc⟩); exacts [h2 h, h3 i hi hc], h4⟩
  rw [List.mem_map]
  constructor
  · rintro ⟨⟨r', l⟩, h, rfl⟩
    obtain ⟨k, hk, h1, h2, h3⟩ := (mem_printed _ (run_seen registry es) _).mp h
    exact ⟨k, hk, (key k).mp ⟨⟨l, h1⟩, h2, h3⟩⟩
  · rintro ⟨k, hk, h⟩
    obtain ⟨⟨l, h1⟩, h2, h3⟩ := (key k).mpr h
    exact ⟨(r, l), (mem_printed _ (run_seen registry es) _).mpr ⟨k, hk, h1, h2, h3⟩, rfl⟩

/-- For a source without imports that is accepted: the relations it and the accepted sources before it use and nothing computes, each once. -/
theorem c122_exact (registry : List String) (es : List Event) (items : List Item) :
    (((Src.mk [] items true).compile (run registry es)).2.map Prod.fst).Nodup ∧
    ∀ r, r ∈ ((Src.mk [] items true).compile (run registry es)).2.map Prod.fst ↔ Missing (registry ++ registered es) (accepted es ++ items) r := by
  refine ⟨?_, fun r => ?_⟩
  · have e : ((Src.mk [] items true).compile (run registry es)).2 = ((transform items).foldl State.visit (run registry es)).warnings := by
      simp [Src.compile, compileImports]
    rw [e]
    refine List.Nodup.sublist (List.Sublist.map _ List.filter_sublist) ?_
    rw [foldl_visit, (run_seen registry es).1]
    exact foldl_insert_keys _ (foldl_insert_keys _ (by simp))
  · rw [c122_warnings]
    simp [Src.parts, partsAll, itemsOf]

/-- One rule that uses `edge`, which nothing computes, and one that computes `path`. -/
example : (Src.mk [] [.rule [("path", ⟨0, some 0⟩)] [("edge", ⟨0, some 10⟩)], .query "path" ⟨0, some 30⟩] true).compile (run ["range"] []) =
    (some ⟨[("edge", ⟨0, some 10⟩), ("path", ⟨0, some 30⟩)], ["range", "path"]⟩, [("edge", ⟨0, some 10⟩)]) := by decide +kernel

/-- A source that is rejected has no effect on the warnings of what is compiled later. -/
theorem c122_rejected (registry : List String) (es es' : List Event) (src : Src) (h : src.parts.all Prod.snd = false) :
    run registry (es ++ .compile src :: es') = run registry (es ++ es') := by
  have h' := (stepParts_some src.parts (run_seen registry es)).2 h
  have : Event.step (run registry es) (.compile src) = run registry es := by simp [Event.step, compile_parts, h']
  unfold run at this ⊢
  rw [List.foldl_append, List.foldl_cons, this, List.foldl_append]

example : (Src.mk [] [.query "a" ⟨0, some 0⟩] false).parts.all Prod.snd = false := by decide +kernel

/-- Once a relation is registered or computed by something accepted, there is no warning about it, whatever is compiled later. -/
theorem c122_quiet (registry : List String) (es es' : List Event) (src : Src) (r : String)
    (h : r ∈ registry ∨ r ∈ registered es ∨ ∃ i ∈ accepted es, i.Computes r) : r ∉ (src.compile (run registry (es ++ es'))).2.map Prod.fst := by
  rw [c122_warnings]
  rintro ⟨k, -, -, h1, h2, -⟩
  have e1 : ∀ l : List Event, registered (l ++ es') = registered l ++ registered es' := by
    intro l
    induction l with
    | nil => rfl
    | cons e l ih => cases e <;> simp [registered, ih]
  have e2 : ∀ l : List Event, acceptedParts (l ++ es') = acceptedParts l ++ acceptedParts es' := by
    intro l
    induction l with
    | nil => rfl
    | cons e l ih => cases e <;> simp [acceptedParts, ih, List.append_assoc]
  rw [e1] at h1; rw [accepted, e2, itemsOf, List.flatMap_append] at h2
  simp only [List.mem_append, not_or] at h1
  rcases h with h | h | ⟨i, hi, hc⟩
  · exact h1.1 h
  · exact h1.2.1 h
  · exact h2 i (List.mem_append_left _ (List.mem_append_left _ hi)) hc

example : "edge" ∉ ((Src.mk [] [.query "edge" ⟨1, some 0⟩] true).compile (run [] ([.compile (.mk [] [.types ["edge"]] true)] ++ []))).2.map Prod.fst :=
  c122_quiet [] _ [] _ _ (Or.inr (Or.inr ⟨.types ["edge"], by simp [accepted, acceptedParts, Src.parts, partsAll, itemsOf], by simp [Item.Computes]⟩))

/-- The place of a warning of a source without imports is that of the last use, among what was accepted before and then the source, the rules made for
queries of atoms being behind all other items of their source. -/
theorem c122_place_partial (registry : List String) (es : List Event) (items : List Item) (r : String) (l : Place)
    (h : (r, l) ∈ ((Src.mk [] items true).compile (run registry es)).2) :
    ∃ a b, usesOf (acceptedParts es ++ [(items, true)]) = a ++ (r, l) :: b ∧ r ∉ b.map Prod.fst := by
  rw [compile_parts, mem_printed _ (run_seen registry es)] at h
  obtain ⟨k, -, h, -⟩ := h
  rw [usesOf_append]
  simpa [Src.parts, partsAll] using h

example : ("edge", (⟨0, some 9⟩ : Place)) ∈ ((Src.mk [] [.rule [("path", ⟨0, some 0⟩)] [("edge", ⟨0, some 4⟩)], .query "edge" ⟨0, some 9⟩] true).compile (run [] [])).2 := by
  decide +kernel

/-- A source is not the only one that is warned about: the same warning comes back with every later source, also if that uses nothing. -/
theorem c122_again_false : ∃ (es : List Event) (src : Src), src.parts = [([], true)] ∧
    (src.compile (run [] es)).2 = [("edge", ⟨0, some 7⟩)] ∧ (src.compile (run [] (es ++ [.compile src]))).2 = [("edge", ⟨0, some 7⟩)] :=
  ⟨[.compile (.mk [] [.rule [("path", ⟨0, some 0⟩)] [("edge", ⟨0, some 7⟩)]] true)], .mk [] [] true, rfl, by decide +kernel, by decide +kernel⟩

/-- There is a warning about a relation that the program does compute: it is used in a file and computed in the one that imports the file. -/
theorem c122_import_false : ∃ src : Src, src.parts.all Prod.snd = true ∧ (∃ i ∈ itemsOf src.parts, i.Computes "edge") ∧
    "edge" ∈ (src.compile (run [] [])).2.map Prod.fst :=
  ⟨.mk [.mk [] [.rule [("path", ⟨0, some 0⟩)] [("edge", ⟨0, some 7⟩)]] true] [.set "edge"] true, by decide +kernel,
    ⟨.set "edge", by simp [Src.parts, partsAll, itemsOf], by simp [Item.Computes]⟩, by decide +kernel⟩

/-- A source that is rejected may print warnings: those of what it imports. -/
theorem c122_rejected_false : ∃ src : Src, (src.compile (run [] [])).1 = none ∧ (src.compile (run [] [])).2 ≠ [] :=
  ⟨.mk [.mk [] [.rule [("path", ⟨0, some 0⟩)] [("edge", ⟨0, some 7⟩)]] true] [] false, by decide +kernel, by decide +kernel⟩

/-- The place of a warning need not be in the source that uses the relation: for a query of an atom it is the first source of the context, nowhere in it. -/
theorem c122_place_false : ∃ (es : List Event) (items : List Item), (∀ i ∈ items, ∀ u ∈ i.uses, u.2.source = 1) ∧
    ((Src.mk [] items true).compile (run [] es)).2 = [("edge", ⟨0, Option.none⟩)] :=
  ⟨[.compile (.mk [] [.set "node"] true)], [.queryAtom "edge(1, 2)" "edge" ⟨1, some 0⟩], by decide +kernel, by decide +kernel⟩

end Scallop.Warn

namespace Scallop.Front

variable {F : Type}

/-- The check of wildcards accepts a rule if and only if no argument of a head is a wildcard and no operand of an operator or conditional, at any depth of any
expression of the rule, is one. -/
theorem c122_wildcards_partial (r : FRule F) : r.wildErrors = [] ↔
    ¬ r.head.Has .wild ∧ ∀ e, r.head.Has e ∨ r.body.Has e → ∀ x, FExpr.In x e → ¬ x.OperandWild := by
  unfold FRule.wildErrors
  rw [List.append_eq_nil_iff, List.append_eq_nil_iff, wildErrorsAll_fine, wildErrorsAll_fine, List.flatMap_eq_nil_iff]
  simp only [check_nil, mem_args, mem_exprs]
  constructor
  · rintro ⟨h1, h2, h3⟩
    exact ⟨fun h => h1 _ h rfl, fun e he => he.elim (h2 e) (h3 e)⟩
  · rintro ⟨h1, h2⟩
    exact ⟨fun x hx e => h1 (e ▸ hx), fun e he => h2 e (Or.inl he), fun e he => h2 e (Or.inr he)⟩

example : (⟨.atom "p" [.wild], .atom "q" [.un .not .wild, .wild]⟩ : FRule Int).wildErrors = ["head of rule", "unary expression"] := by decide +kernel

/-- A wildcard in a call is accepted where a value is needed: in the head of a rule, and where it is compared with a bound variable; the analysis of bound
variables accepts these rules too. -/
theorem c122_wildcards_false : ∃ (r₁ r₂ : FRule Int) (n : Nat → Name),
    r₁.head.args = [.call "string_length" [.wild]] ∧ r₁.wildErrors = [] ∧ checkRule (fun _ => none) [] r₁.head.args r₁.body = .ok [n 0] ∧
    r₂.body.exprs = [.var (n 0), .bin .eq (.var (n 0)) (.call "string_length" [.wild])] ∧ r₂.wildErrors = [] ∧
    checkRule (fun _ => none) [] r₂.head.args r₂.body = .ok [n 0] :=
  ⟨⟨.atom "p" [.call "string_length" [.wild]], .atom "q" [.var (.user "x")]⟩,
    ⟨.atom "p" [.var (.user "x")], .conj [.atom "q" [.var (.user "x")], .constraint (.bin .eq (.var (.user "x")) (.call "string_length" [.wild]))]⟩,
    fun _ => .user "x", rfl, by decide +kernel, by decide +kernel, rfl, by decide +kernel, by decide +kernel⟩

end Scallop.Front

namespace Scallop.Plan

open Scallop.Back

private abbrev V (x : String) : Term String Empty := .var x

private abbrev six : Val Empty := .int .i32 6

/-- What `rel p($string_length(_)) = q(x)` is compiled to has no plan: the compiler panics. (The body is that of `ruleToBack`, with the names of the
variables as the compiler writes them; the passes that rewrite rules before planning are left out.) -/
theorem c122_wildcards_panic_false :
    Front.ruleToBack (F := Empty) "p" [.call "string_length" [.wild]] (.atom "q" [.var (.user "x")]) =
      some [⟨⟨"p", [.var (.flat 0)]⟩, [⟨.atom ⟨"q", [.var (.user "x")]⟩, false⟩, ⟨.assign (.flat 0) (.call "string_length" [.var (.wc 1)]), false⟩]⟩] ∧
    ruleFlow testEnv testSearch (.atom ⟨"p", [V "flat#0"]⟩) [.atom ⟨"q", [V "x"]⟩, .assign "flat#0" (.call "string_length" [V "wc#1"])] false {} = none :=
  ⟨rfl, by decide +kernel⟩

/-- In `rel p(x) = q(x), x == $string_length(_)` the equation is ignored: the rule derives `p(6)` from `q(6)` also if no string has a length.
(The passes that rewrite rules before planning are left out here.) -/
theorem c122_wildcards_ignored_false :
    let body : List (Lit String Empty Reduce) :=
      [.atom ⟨"q", [V "x"]⟩, .cbin .eq (V "x") (V "flat#0"), .assign "flat#0" (.call "string_length" [V "wc#1"])]
    Front.ruleToBack (F := Empty) "p" [.var (.user "x")]
        (.conj [.atom "q" [.var (.user "x")], .constraint (.bin .eq (.var (.user "x")) (.call "string_length" [.wild]))]) =
      some [⟨⟨"p", [.var (.user "x")]⟩, [⟨.atom ⟨"q", [.var (.user "x")]⟩, false⟩, ⟨.cbin .eq (.var (.user "x")) (.var (.flat 0)), false⟩,
        ⟨.assign (.flat 0) (.call "string_length" [.var (.wc 1)]), false⟩]⟩] ∧
    ∃ f, ruleFlow testEnv testSearch (.atom ⟨"p", [V "x"]⟩) body false {} = some (f, {}) ∧ Den (testWorld [("q", flat [six])]) f (flat [six]) ∧
      ¬ ∃ σ, (∀ l ∈ body, LitHolds (testWorld [("q", flat [six])]) σ l) ∧ flat [six] = flat ([V "x"].map (Term.val σ)) := by
  refine ⟨rfl, .project (.project (.leaf (.rel "q")) (.access [0])) (.tuple [.access []]), by decide +kernel,
    ⟨.val six, ⟨flat [six], by simp [Den, testWorld], by decide +kernel⟩, by decide +kernel⟩, ?_⟩
  rintro ⟨σ, h, _⟩
  have h2 := h (.assign "flat#0" (.call "string_length" [V "wc#1"])) (by simp)
  simp [LitHolds, AExpr.val, testWorld, noExt] at h2

end Scallop.Plan
