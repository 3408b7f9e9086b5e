import Verif.Proof.Query
import Verif.Model.Ram

/-!
# Property theorem C105: queries
-/

namespace Scallop.Front

variable {F : Type} {X : Ext F} {D : DB F} {G : Aggs F}

/-! ## C105: what a query returns -/

/-- **C105.** The rule that the compiler adds for the query `p(args)` derives exactly the tuples that answer the query: the facts of `p` whose components are values of the
arguments as they are written, with variables that occur twice, constants, wildcards and any composed expressions. -/
theorem c105_query (hX : X.ExactFloats) (showFloat : F → List Char) (p : String) (args : List (FExpr F)) (ha : FExpr.AllNamesIn Name.Written args) (vs : List (Val F)) :
    (∃ args', (queryRule showFloat p args).head = .atom ((Query.atom p args).name showFloat) args' ∧
      Derives X D G (fun _ => False) args' (queryRule showFloat p args).body vs) ↔ Answers X D p args vs := by
  constructor
  · rintro ⟨args', h, σ, hb, hv⟩
    simp only [queryRule, FHead.atom.injEq] at h
    obtain ⟨-, rfl⟩ := h
    simp only [queryRule, Formula.Holds, Formula.Holds.allHold] at hb
    obtain ⟨⟨ws, hw, hd⟩, hc⟩ := hb
    rw [queryArgs_unique σ args 0 vs ws hv hw]
    exact ⟨hd, σ, query_forward hX σ args 0 ws hw hc⟩
  · rintro ⟨hd, σ, hv⟩
    obtain ⟨τ, h1, h2⟩ := query_assign σ vs
    have hv' : FExpr.AllEvalTo X τ args vs := (allEvalTo_congr h1 args ha vs).2 hv
    obtain ⟨h3, h4⟩ := query_backward (D := D) (G := G) (V := fun _ => False) hX τ args 0 vs h2 hv'
    refine ⟨_, rfl, τ, ?_, h3⟩
    simp only [queryRule, Formula.Holds, Formula.Holds.allHold]
    exact ⟨⟨vs, h3, hd⟩, h4⟩

/-- **C105.** The rule of a query always compiles, and the compiled rules derive exactly the tuples that answer the query. -/
theorem c105_compiled (hX : X.ExactFloats) (showFloat : F → List Char) (p : String) (args : List (FExpr F)) (ha : FExpr.AllNamesIn Name.Written args) :
    ∃ args' rs, (queryRule showFloat p args).head = .atom ((Query.atom p args).name showFloat) args' ∧
      ruleToBack ((Query.atom p args).name showFloat) args' (queryRule showFloat p args).body = some rs ∧
      ∀ vs, BackDerives X D G (fun _ => False) rs ((Query.atom p args).name showFloat) vs ↔ Answers X D p args vs := by
  obtain ⟨rs, hrs⟩ := conj_compiles ((Query.atom p args).name showFloat) (queryArgs 0 args) (.atom p (queryArgs 0 args)) (queryConstraints 0 args) (by
    intro g hg
    rcases List.mem_cons.1 hg with rfl | hg
    · exact .inl ⟨_, _, rfl⟩
    · exact queryConstraints_simple args 0 g hg)
  refine ⟨queryArgs 0 args, rs, rfl, hrs, fun vs => ?_⟩
  have hn := queryArgs_names args 0 ha
  have hneg : ∀ fs : List (Formula F), (∀ f ∈ fs, Simple f) → Formula.NonEmpty.allNonEmpty fs ∧ Formula.PlainNeg.allPlainNeg fs := by
    intro fs
    induction fs with
    | nil => intro _; exact ⟨trivial, trivial⟩
    | cons f fs ih =>
      intro h
      obtain ⟨h1, h2⟩ := ih (fun g hg => h g (List.mem_cons_of_mem _ hg))
      rcases h f (by simp) with ⟨p, as, rfl⟩ | ⟨a, b, rfl⟩ <;> exact ⟨⟨trivial, h1⟩, trivial, h2⟩
  obtain ⟨h1, h2⟩ := hneg _ (queryConstraints_simple args 0)
  rw [ruleToBack_derives (fun _ h => h.elim) ((Query.atom p args).name showFloat) (queryArgs 0 args) (.conj (.atom p (queryArgs 0 args) :: queryConstraints 0 args)) hn
    ⟨hn, queryConstraints_names args 0 ha⟩ ⟨by simp, trivial, h1⟩ ⟨trivial, h2⟩ hrs vs, ← c105_query hX showFloat p args ha vs]
  constructor
  · intro h; exact ⟨_, rfl, h⟩
  · rintro ⟨args', h, hd⟩
    simp only [queryRule, FHead.atom.injEq] at h
    obtain ⟨-, rfl⟩ := h
    exact hd

theorem mem_addedRules (showFloat : F → List Char) (r : FRule F) : ∀ qs : List (Query F),
    r ∈ addedRules showFloat qs ↔ ∃ p args, Query.atom p args ∈ qs ∧ r = queryRule showFloat p args
  | [] => by simp [addedRules]
  | .predicate p :: qs => by simp [addedRules, mem_addedRules showFloat r qs]
  | .atom p args :: qs => by
    simp only [addedRules, List.mem_cons, mem_addedRules showFloat r qs]
    constructor
    · rintro (rfl | ⟨p', as, h, rfl⟩)
      · exact ⟨p, args, .inl rfl, rfl⟩
      · exact ⟨p', as, .inr h, rfl⟩
    · rintro ⟨p', as, h | h, rfl⟩
      · cases h; exact .inl rfl
      · exact .inr ⟨p', as, h, rfl⟩

/-- **C105.** The relation printed for a query holds the answers of all queries of the program with the same printed text, and nothing else. -/
theorem c105_relation (hX : X.ExactFloats) (showFloat : F → List Char) (qs : List (Query F)) (ha : ∀ p args, Query.atom p args ∈ qs → FExpr.AllNamesIn Name.Written args)
    (n : String) (vs : List (Val F)) :
    RelationHolds X D G (addedRules showFloat qs) n vs ↔ ∃ p args, Query.atom p args ∈ qs ∧ (Query.atom p args).name showFloat = n ∧ Answers X D p args vs := by
  constructor
  · rintro ⟨r, hr, args', hh, hd⟩
    obtain ⟨p, args, hq, rfl⟩ := (mem_addedRules showFloat r qs).1 hr
    have hn : (Query.atom p args).name showFloat = n := by
      simp only [queryRule, FHead.atom.injEq] at hh
      exact hh.1
    exact ⟨p, args, hq, hn, (c105_query hX showFloat p args (ha p args hq) vs).1 ⟨args', by rw [hh, hn], hd⟩⟩
  · rintro ⟨p, args, hq, rfl, h⟩
    obtain ⟨args', h1, h2⟩ := (c105_query (G := G) hX showFloat p args (ha p args hq) vs).2 h
    exact ⟨_, (mem_addedRules showFloat _ qs).2 ⟨p, args, hq, rfl⟩, args', h1, h2⟩

/-- **C105.** Queries of uncomposed arguments with the same text are the same query, up to types of integers. -/
theorem c105_names (showFloat : F → List Char) (p p' : String) (args args' : List (FExpr F)) (hp : IsIdent p.toList) (hp' : IsIdent p'.toList)
    (ha : ∀ a ∈ args, SimpleArg a) (ha' : ∀ a ∈ args', SimpleArg a) (h : (Query.atom p args).name showFloat = (Query.atom p' args').name showFloat) :
    p = p' ∧ List.Forall₂ SameArg args args' := by
  simp only [Query.name, String.ofList_inj, showAtom, showExprs_eq, List.append_assoc, List.cons_append] at h
  obtain ⟨h1, h2⟩ := split_at _ _ _ _ (ident_no_comma _ hp).2.1 (ident_no_comma _ hp').2.1 h
  rw [List.append_cancel_right_eq] at h2
  refine ⟨String.toList_inj.1 h1, simple_all showFloat _ _ ha ha' (commaSep_inj _ _ ?_ ?_ h2)⟩ <;>
    (intro x hx
     obtain ⟨a, hm, rfl⟩ := List.mem_map.1 hx
     exact simple_text showFloat a (by first | exact ha a hm | exact ha' a hm))

theorem forall2_same (tys : Nat → IntTy) : ∀ (l l' : List (FExpr F)) (i : Nat), List.Forall₂ SameArg l l' →
    (∀ (j : Nat) k n, l[j]? = some (.const (.int k n)) → k = tys (i + j)) → (∀ (j : Nat) k n, l'[j]? = some (.const (.int k n)) → k = tys (i + j)) → l = l'
  | [], [], _, _, _, _ => rfl
  | a :: l, b :: l', i, .cons h hs, h1, h2 => by
    have h3 := forall2_same tys l l' (i + 1) hs
      (fun j k n hj => by have := h1 (j + 1) k n (by simpa using hj); rwa [Nat.add_assoc, Nat.add_comm 1 j])
      (fun j k n hj => by have := h2 (j + 1) k n (by simpa using hj); rwa [Nat.add_assoc, Nat.add_comm 1 j])
    rw [h3]
    rcases h with rfl | ⟨k, k', n, rfl, rfl⟩
    · rfl
    · rw [h1 0 k n rfl, h2 0 k' n rfl]

/-- **C105 (partial).** In a program whose queries have uncomposed arguments, with integers of the types of the columns, the relation printed for a query holds exactly
the tuples that answer it, whatever the other queries are. Missing: composed arguments, strings with quotes or commas (`c105_mixed_false`). -/
theorem c105_answers_partial (hX : X.ExactFloats) (showFloat : F → List Char) (qs : List (Query F)) (tys : String → Nat → IntTy)
    (hq : ∀ p args, Query.atom p args ∈ qs → IsIdent p.toList ∧ (∀ a ∈ args, SimpleArg a) ∧ FExpr.AllNamesIn Name.Written args ∧
      ∀ (j : Nat) k n, args[j]? = some (.const (.int k n)) → k = tys p j)
    (p : String) (args : List (FExpr F)) (hm : Query.atom p args ∈ qs) (vs : List (Val F)) :
    RelationHolds X D G (addedRules showFloat qs) ((Query.atom p args).name showFloat) vs ↔ Answers X D p args vs := by
  rw [c105_relation hX showFloat qs (fun p as h => (hq p as h).2.2.1)]
  constructor
  · rintro ⟨p', args', hm', hn, h⟩
    obtain ⟨h1, h2, -, h3⟩ := hq p args hm
    obtain ⟨h1', h2', -, h3'⟩ := hq p' args' hm'
    obtain ⟨rfl, hf⟩ := c105_names showFloat p' p args' args h1' h1 h2' h2 hn
    rwa [forall2_same (tys p') args' args 0 hf (by simpa using h3') (by simpa using h3)] at h
  · exact fun h => ⟨p, args, hm, rfl, h⟩

/-- **C105.** A program prints its queries if there are any, each once, never hidden; otherwise the relations without `#` in their names. -/
theorem c105_outputs (showFloat : F → List Char) (qs : List (Query F)) (relations : List String) (hidden : String → Bool) :
    (qs ≠ [] → (outputs showFloat qs relations hidden).Nodup ∧
      ∀ n b, (n, b) ∈ outputs showFloat qs relations hidden ↔ b = false ∧ ∃ q ∈ qs, q.name showFloat = n) ∧
    ∀ n b, (n, b) ∈ outputs showFloat [] relations hidden ↔ n ∈ relations ∧ '#' ∉ n.toList ∧ b = hidden n := by
  constructor
  · intro h
    obtain ⟨q, qs, rfl⟩ := List.exists_cons_of_ne_nil h
    refine ⟨List.nodup_dedup _, fun n b => ?_⟩
    simp only [outputs, List.mem_dedup, List.mem_map, Prod.mk.injEq]
    constructor
    · rintro ⟨q, hq, rfl, rfl⟩; exact ⟨rfl, q, hq, rfl⟩
    · rintro ⟨rfl, q, hq, rfl⟩; exact ⟨q, hq, rfl, rfl⟩
  · intro n b
    simp only [outputs, List.mem_map, List.mem_filter, Prod.mk.injEq, Bool.not_eq_true', List.contains_eq_mem, decide_eq_false_iff_not]
    constructor
    · rintro ⟨r, ⟨h1, h2⟩, rfl, rfl⟩; exact ⟨h1, h2, rfl⟩
    · rintro ⟨h1, h2, rfl⟩; exact ⟨n, ⟨h1, h2⟩, rfl, rfl⟩

/-! ### Examples -/

/-- No floating point numbers. -/
abbrev qv (x : String) : FExpr Empty := .var (.user x)
/-- A string. -/
abbrev qs (s : String) : FExpr Empty := .const (.string s)
/-- An integer. -/
abbrev qi (n : Int) : FExpr Empty := .const (.int .i32 n)

/-- Queries `path(1, x)`, `path(x, x)`, `path(_, "a b")` and `edge(-1, x)` meet the hypotheses. -/
example : ∀ p args, Query.atom p args ∈ [Query.atom "path" [qi 1, qv "x"], .atom "path" [qv "x", qv "x"], .predicate "path", .atom "path" [.wild, qs "a b"], .atom "edge" [qi (-1), qv "x"]] →
    IsIdent p.toList ∧ (∀ a ∈ args, SimpleArg a) ∧ FExpr.AllNamesIn Name.Written args ∧ ∀ (j : Nat) k n, args[j]? = some (.const (.int k n)) → k = IntTy.i32 := by
  have hi : IsIdent "path".toList := ⟨'p', "ath".toList, rfl, by decide, by decide⟩
  have he : IsIdent "edge".toList := ⟨'e', "dge".toList, rfl, by decide, by decide⟩
  have hx : IsIdent ['x'] := ⟨'x', [], rfl, by decide, by decide⟩
  have hw : (Name.user "x").Written := ⟨"x", rfl, by decide⟩
  have hI : ∀ (args : List (FExpr Empty)), (∀ a ∈ args, ∀ k n, a = .const (.int k n) → k = IntTy.i32) → ∀ (j : Nat) k n, args[j]? = some (.const (.int k n)) → k = IntTy.i32 :=
    fun args h j k n hj => h _ (List.mem_of_getElem? hj) k n rfl
  intro p args h
  simp only [List.mem_cons, List.not_mem_nil, or_false] at h
  rcases h with h | h | h | h | h <;> cases h <;>
    exact ⟨by assumption, by simp [SimpleArg, hx], by simp [FExpr.AllNamesIn, FExpr.NamesIn, hw], hI _ (by simp)⟩

/-- The names of queries as they are printed. -/
example : (Query.atom "path" [qi (-1), qv "x", .wild, qs "a b", .bin .add (qv "x") (qi 2)]).name Empty.elim = "path(-1, x, _, \"a b\", (x + 2))" := by decide +kernel

/-- **C105, refuted in general.** Strings are printed without escapes: the queries `r("a", "b\", \"c")` and `r("a\", \"b", "c")` of a program have the same name, and the relation of the
first holds a fact that does not answer it. -/
theorem c105_mixed_false (G : Aggs Empty) : ∃ (queries : List (Query Empty)) (args : List (FExpr Empty)) (D : DB Empty) (vs : List (Val Empty)),
    Query.atom "r" args ∈ queries ∧ RelationHolds noExt D G (addedRules Empty.elim queries) ((Query.atom "r" args).name Empty.elim) vs ∧ ¬ Answers noExt D "r" args vs := by
  have hX : noExt.ExactFloats := by intro x; exact x.elim
  refine ⟨[.atom "r" [qs "a", qs "b\", \"c"], .atom "r" [qs "a\", \"b", qs "c"]], [qs "a", qs "b\", \"c"], fun p vs => p = "r" ∧ vs = [.string "a\", \"b", .string "c"],
    [.string "a\", \"b", .string "c"], by simp, ?_, ?_⟩
  · rw [c105_relation hX]
    · exact ⟨"r", [qs "a\", \"b", qs "c"], by simp, by decide +kernel, ⟨rfl, rfl⟩, fun _ => .bool true, by simp [FExpr.AllEvalTo, FExpr.EvalsTo]⟩
    · intro p args h
      simp only [List.mem_cons, List.not_mem_nil, or_false] at h
      rcases h with h | h <;> cases h <;> simp [FExpr.AllNamesIn, FExpr.NamesIn]
  · rintro ⟨-, σ, h⟩
    simp [FExpr.AllEvalTo, FExpr.EvalsTo] at h

end Scallop.Front
