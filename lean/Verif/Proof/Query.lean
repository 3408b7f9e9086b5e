import Verif.Spec.Query
import Verif.Proof.Front4

/-!
# Lemmas about queries
-/

namespace Scallop.Front

variable {F : Type} {X : Ext F} {D : DB F} {G : Aggs F} {V : Name → Prop}

theorem toDigits_inj {m n : Nat} (h : Nat.toDigits 10 m = Nat.toDigits 10 n) : m = n := by
  have := congrArg (fun l => Nat.ofDigitChars 10 l 0) h
  simpa [Nat.ofDigitChars_toDigits (b := 10) (by omega) (by omega)] using this

theorem queryVar_inj {i j : Nat} (h : queryVar i = queryVar j) : i = j := by
  simp only [queryVar, Name.user.injEq, String.ofList_inj, List.cons.injEq, true_and] at h
  exact toDigits_inj h

theorem queryVar_not_written (i : Nat) : ¬ (queryVar i).Written := by
  rintro ⟨s, h, hs⟩
  simp only [queryVar, Name.user.injEq] at h
  subst h
  simp at hs

theorem constraint_iff (hX : X.ExactFloats) (σ : Name → Val F) (x : Name) (e : FExpr F) :
    (Formula.constraint (.bin .eq (.var x) e) : Formula F).Holds X D G V σ ↔ e.EvalsTo X σ (σ x) := by
  simp only [Formula.Holds, FExpr.EvalsTo]
  constructor
  · rintro ⟨a, b, rfl, h1, h2⟩
    rw [Back.evalBin_eq_iff hX] at h2
    rw [h2]; exact h1
  · intro h
    exact ⟨_, _, rfl, h, (Back.evalBin_eq_iff hX _ _).2 rfl⟩

/-- The atom and the equations of a query say that the arguments have the values. -/
theorem query_forward (hX : X.ExactFloats) (σ : Name → Val F) : ∀ (args : List (FExpr F)) (i : Nat) (vs : List (Val F)),
    FExpr.AllEvalTo X σ (queryArgs i args) vs → Formula.Holds.allHold X D G V σ (queryConstraints i args) → FExpr.AllEvalTo X σ args vs := by
  intro args
  induction args with
  | nil => intro i vs h _; exact h
  | cons e es ih =>
    intro i vs h hc
    cases e <;> simp only [queryArgs, queryConstraints, FExpr.AllEvalTo, FExpr.EvalsTo, Formula.Holds.allHold, constraint_iff hX] at h hc ⊢ <;>
      obtain ⟨w, ws, rfl, h1, h2⟩ := h
    case const => exact ⟨w, ws, rfl, h1, ih _ _ h2 hc⟩
    case var => exact ⟨w, ws, rfl, h1, ih _ _ h2 hc⟩
    case wild => exact ⟨w, ws, rfl, trivial, ih _ _ h2 hc⟩
    all_goals
      subst h1
      exact ⟨_, ws, rfl, hc.1, ih _ _ h2 hc.2⟩

theorem query_backward (hX : X.ExactFloats) (σ : Name → Val F) : ∀ (args : List (FExpr F)) (i : Nat) (vs : List (Val F)),
    (∀ (k : Nat) v, vs[k]? = some v → σ (queryVar (i + k)) = v) → FExpr.AllEvalTo X σ args vs →
    FExpr.AllEvalTo X σ (queryArgs i args) vs ∧ Formula.Holds.allHold X D G V σ (queryConstraints i args) := by
  intro args
  induction args with
  | nil => intro i vs _ h; exact ⟨h, trivial⟩
  | cons e es ih =>
    intro i vs hq h
    obtain ⟨w, ws, rfl, h1, h2⟩ := h
    have hw : w = σ (queryVar i) := (hq 0 w rfl).symm
    have ih' := ih (i + 1) ws (fun k v hk => by
      have := hq (k + 1) v (by simpa using hk)
      rwa [Nat.add_assoc, Nat.add_comm 1 k]) h2
    cases e <;> simp only [queryArgs, queryConstraints, FExpr.AllEvalTo, Formula.Holds.allHold, constraint_iff hX]
    case const => exact ⟨⟨w, ws, rfl, h1, ih'.1⟩, ih'.2⟩
    case var => exact ⟨⟨w, ws, rfl, h1, ih'.1⟩, ih'.2⟩
    case wild => exact ⟨⟨w, ws, rfl, by simpa only [FExpr.EvalsTo] using hw, ih'.1⟩, ih'.2⟩
    all_goals
      subst hw
      exact ⟨⟨_, ws, rfl, by simp only [FExpr.EvalsTo], ih'.1⟩, h1, ih'.2⟩

/-- The arguments of the rule have one list of values. -/
theorem queryArgs_unique (σ : Name → Val F) : ∀ (args : List (FExpr F)) (i : Nat) (vs vs' : List (Val F)),
    FExpr.AllEvalTo X σ (queryArgs i args) vs → FExpr.AllEvalTo X σ (queryArgs i args) vs' → vs = vs' := by
  intro args
  induction args with
  | nil => intro i vs vs' h h'; simp only [queryArgs, FExpr.AllEvalTo] at h h'; rw [h, h']
  | cons e es ih =>
    intro i vs vs' h h'
    cases e <;> simp only [queryArgs, FExpr.AllEvalTo, FExpr.EvalsTo] at h h' <;>
      (obtain ⟨w, ws, rfl, h1, h2⟩ := h
       obtain ⟨w', ws', rfl, h3, h4⟩ := h'
       rw [h1, h3, ih _ _ _ h2 h4])

open Classical in
/-- The assignment of `σ` with the values of the new variables. -/
theorem query_assign (σ : Name → Val F) (vs : List (Val F)) :
    ∃ τ : Name → Val F, (∀ x, x.Written → τ x = σ x) ∧ ∀ (k : Nat) v, vs[k]? = some v → τ (queryVar (0 + k)) = v := by
  refine ⟨fun x => if h : ∃ k, ∃ hk : k < vs.length, x = queryVar k then vs[h.choose]'h.choose_spec.choose else σ x, ?_, ?_⟩
  · intro x hx
    simp only
    rw [dif_neg]
    rintro ⟨k, hk, rfl⟩
    exact queryVar_not_written k hx
  · intro k v hk
    obtain ⟨hk1, hk2⟩ := List.getElem?_eq_some_iff.1 hk
    have h : ∃ j, ∃ hj : j < vs.length, queryVar (0 + k) = queryVar j := ⟨k, hk1, by rw [Nat.zero_add]⟩
    simp only
    rw [dif_pos h]
    have he : h.choose = k := by
      have := queryVar_inj h.choose_spec.choose_spec
      omega
    simp only [he, hk2]

theorem queryArgs_names : ∀ (args : List (FExpr F)) (i : Nat), FExpr.AllNamesIn Name.Written args → FExpr.AllNamesIn Name.IsSource (queryArgs i args) := by
  intro args
  induction args with
  | nil => intro _ _; trivial
  | cons e es ih =>
    intro i h
    have hx : ∀ x : Name, x.Written → x.IsSource := by rintro x ⟨s, rfl, _⟩; trivial
    cases e <;> exact ⟨by first | trivial | exact hx _ h.1, ih _ h.2⟩

theorem written_source (x : Name) (h : x.Written) : x.IsSource := by obtain ⟨s, rfl, _⟩ := h; trivial

/-! ### Compilation -/

/-- Atoms and equations. -/
def Simple (f : Formula F) : Prop := (∃ p as, f = .atom p as) ∨ ∃ a b, f = .constraint (.bin .eq a b)

theorem queryConstraints_simple : ∀ (args : List (FExpr F)) (i : Nat), ∀ f ∈ queryConstraints i args, Simple f := by
  intro args
  induction args with
  | nil => intro i f hf; simp [queryConstraints] at hf
  | cons e es ih =>
    intro i f hf
    cases e <;> simp only [queryConstraints, List.mem_cons] at hf
    case const => exact ih _ f hf
    case var => exact ih _ f hf
    case wild => exact ih _ f hf
    all_goals
      rcases hf with rfl | hf
      · exact .inr ⟨_, _, rfl⟩
      · exact ih _ f hf

theorem queryConstraints_names : ∀ (args : List (FExpr F)) (i : Nat), FExpr.AllNamesIn Name.Written args → Formula.NamesIn.allNamesIn Name.IsSource (queryConstraints i args) := by
  intro args
  induction args with
  | nil => intro _ _; trivial
  | cons e es ih =>
    intro i h
    have h1 := exprNames_mono written_source e h.1
    cases e <;> first | exact ih _ h.2 | exact ⟨⟨trivial, h1⟩, ih _ h.2⟩

theorem fromAll_simple : ∀ fs : List (Formula F), (∀ f ∈ fs, Simple f) → fromFormula.fromAll fs = some (fs.map (fun f => [{ pos := [f] }]))
  | [], _ => rfl
  | f :: fs, h => by
    have h1 : fromFormula f = some [{ pos := [f] }] := by
      rcases h f (by simp) with ⟨p, as, rfl⟩ | ⟨a, b, rfl⟩ <;> rfl
    rw [fromFormula.fromAll, h1, fromAll_simple fs (fun g hg => h g (List.mem_cons_of_mem _ hg))]
    rfl

theorem multiProduct_one {α β : Type} (g : α → β) : ∀ (x : α) (l : List α), multiProduct ((x :: l).map (fun y => [g y])) = [(x :: l).map g]
  | x, [] => rfl
  | x, y :: l => by
    have := multiProduct_one g y l
    simp only [List.map_cons] at this ⊢
    rw [multiProduct, this]
    rfl

theorem join_simple : ∀ (fs : List (Formula F)) (acc : ConjCtx F), (fs.map (fun f => ({ pos := [f] } : ConjCtx F))).foldl
    (fun acc new => ⟨acc.pos ++ new.pos, acc.neg ++ new.neg, acc.agg ++ new.agg⟩) acc = ⟨acc.pos ++ fs, acc.neg, acc.agg⟩
  | [], acc => by simp
  | f :: fs, acc => by
    rw [List.map_cons, List.foldl_cons, join_simple fs]
    simp

theorem flattenLits_simple : ∀ (fs : List (Formula F)) (n : Nat), (∀ f ∈ fs, Simple f) → ∃ r, flattenLits fs n = some r
  | [], n, _ => ⟨_, rfl⟩
  | f :: fs, n, h => by
    have h1 : ∃ r, flattenLit f n = some r := by
      rcases h f (by simp) with ⟨p, as, rfl⟩ | ⟨a, b, rfl⟩ <;> exact ⟨_, rfl⟩
    obtain ⟨r, hr⟩ := h1
    obtain ⟨s, hs⟩ := flattenLits_simple fs r.2 (fun g hg => h g (List.mem_cons_of_mem _ hg))
    exact ⟨_, by rw [flattenLits, hr, Option.bind_some, hs]; rfl⟩

theorem conj_compiles (p : String) (args : List (FExpr F)) (f : Formula F) (fs : List (Formula F)) (h : ∀ g ∈ f :: fs, Simple g) :
    ∃ rs, ruleToBack p args (.conj (f :: fs)) = some rs := by
  have e : fromFormula (.conj (f :: fs)) = some [⟨f :: fs, [], []⟩] := by
    rw [fromFormula, fromAll_simple _ h, Option.map_some, multiProduct_one (fun f => ({ pos := [f] } : ConjCtx F))]
    simp only [List.map_cons, List.map_nil, ConjCtx.join]
    have := join_simple (f :: fs) ({} : ConjCtx F)
    simp only [List.map_cons, List.nil_append] at this
    rw [this]
  obtain ⟨r, hr⟩ := flattenLits_simple (f :: fs) (FExpr.flattenAll args 0).2.2 h
  exact ⟨_, by simp only [ruleToBack]; rw [e, Option.bind_some, conjsToBack, hr]; rfl⟩

/-! ### Names -/

theorem split_at {c : Char} : ∀ (l1 l2 r1 r2 : List Char), c ∉ l1 → c ∉ l2 → l1 ++ c :: r1 = l2 ++ c :: r2 → l1 = l2 ∧ r1 = r2
  | [], [], r1, r2, _, _, h => by simpa using h
  | [], b :: l2, r1, r2, _, h2, h => by simp only [List.nil_append, List.cons_append, List.cons.injEq] at h; exact absurd h.1 (by rintro rfl; simp at h2)
  | a :: l1, [], r1, r2, h1, _, h => by simp only [List.nil_append, List.cons_append, List.cons.injEq] at h; exact absurd h.1 (by rintro rfl; simp at h1)
  | a :: l1, b :: l2, r1, r2, h1, h2, h => by
    simp only [List.cons_append, List.cons.injEq] at h
    simp only [List.mem_cons, not_or] at h1 h2
    obtain ⟨h3, h4⟩ := split_at l1 l2 r1 r2 h1.2 h2.2 h.2
    exact ⟨by rw [h.1, h3], h4⟩

theorem commaSep_inj : ∀ (l1 l2 : List (List Char)), (∀ x ∈ l1, ',' ∉ x ∧ x ≠ []) → (∀ x ∈ l2, ',' ∉ x ∧ x ≠ []) → commaSep l1 = commaSep l2 → l1 = l2
  | [], [], _, _, _ => rfl
  | [], [y], _, h2, h => absurd h.symm (h2 y (by simp)).2
  | [], y :: z :: l2, _, h2, h => by simp [commaSep] at h
  | [x], [], h1, _, h => absurd h (h1 x (by simp)).2
  | x :: y :: l1, [], h1, _, h => by simp [commaSep] at h
  | [x], [y], _, _, h => by simpa [commaSep] using h
  | [x], y :: z :: l2, h1, h2, h => by
    simp only [commaSep] at h
    exact absurd (h ▸ (by simp : ',' ∈ y ++ ',' :: ' ' :: commaSep (z :: l2))) (h1 x (by simp)).1
  | x :: y :: l1, [z], h1, h2, h => by
    simp only [commaSep] at h
    exact absurd (h ▸ (by simp : ',' ∈ x ++ ',' :: ' ' :: commaSep (y :: l1))) (h2 z (by simp)).1
  | x :: y :: l1, x' :: y' :: l2, h1, h2, h => by
    simp only [commaSep] at h
    obtain ⟨h3, h4⟩ := split_at _ _ _ _ (h1 x (by simp)).1 (h2 x' (by simp)).1 h
    rw [h3, commaSep_inj (y :: l1) (y' :: l2) (fun z hz => h1 z (List.mem_cons_of_mem _ hz)) (fun z hz => h2 z (List.mem_cons_of_mem _ hz)) (by simpa using h4)]

theorem showInt_chars (n : Int) : showInt n ≠ [] ∧ ∀ c ∈ showInt n, c.isDigit ∨ c = '-' := by
  have hd : ∀ c ∈ Nat.toDigits 10 n.natAbs, c.isDigit := fun c hc => Nat.isDigit_of_mem_toDigits (by omega) (by omega) hc
  have hne : Nat.toDigits 10 n.natAbs ≠ [] := by
    intro h
    have := Nat.length_toDigits_pos (b := 10) (n := n.natAbs)
    rw [h] at this
    simp at this
  unfold showInt
  split
  · refine ⟨by simp, ?_⟩
    intro c hc
    rcases List.mem_cons.1 hc with rfl | hc
    · exact .inr rfl
    · exact .inl (hd c hc)
  · exact ⟨hne, fun c hc => .inl (hd c hc)⟩

theorem showInt_inj {m n : Int} (h : showInt m = showInt n) : m = n := by
  have hd : ∀ (k : Nat), '-' ∉ Nat.toDigits 10 k := by
    intro k hk
    have := Nat.isDigit_of_mem_toDigits (b := 10) (by omega) (by omega) hk
    simp [Char.isDigit] at this
  unfold showInt at h
  split at h <;> split at h
  · have := toDigits_inj (List.cons.inj h).2
    omega
  · exact absurd (h ▸ (by simp)) (hd n.natAbs)
  · exact absurd (h.symm ▸ (by simp)) (hd m.natAbs)
  · have := toDigits_inj h
    omega

/-- Which kind of simple argument a text is. -/
def textKind : List Char → Nat
  | '"' :: _ => 2
  | 's' :: '"' :: _ => 3
  | '_' :: _ => 5
  | [] => 6
  | c :: l => if c.isDigit ∨ c = '-' then 0 else if c :: l = "true".toList ∨ c :: l = "false".toList then 1 else 4

theorem textKind_int (n : Int) : textKind (showInt n) = 0 := by
  obtain ⟨hne, hc⟩ := showInt_chars n
  cases h : showInt n with
  | nil => exact absurd h hne
  | cons c l =>
    have h1 := hc c (by rw [h]; simp)
    unfold textKind
    split
    · rename_i heq; cases heq; revert h1; decide
    · rename_i heq; cases heq; revert h1; decide
    · rename_i heq; cases heq; revert h1; decide
    · rename_i heq; cases heq
    · rename_i heq; cases heq; rw [if_pos h1]

theorem alpha_not_digit (c : Char) (h : c.isAlpha = true) : ¬ (c.isDigit = true ∨ c = '-') := by
  rintro (h1 | rfl)
  · simp only [Char.isAlpha, Char.isUpper, Char.isLower, Char.isDigit, Bool.or_eq_true, Bool.and_eq_true, decide_eq_true_eq] at h h1
    have e1 : 'A'.val.toNat = 65 := rfl
    have e2 : 'Z'.val.toNat = 90 := rfl
    have e3 : 'a'.val.toNat = 97 := rfl
    have e4 : 'z'.val.toNat = 122 := rfl
    have e5 : '9'.val.toNat = 57 := rfl
    simp only [ge_iff_le, UInt32.le_iff_toNat_le] at h h1
    omega
  · revert h; decide

theorem textKind_ident (s : List Char) (h : IsIdent s) (h1 : s ≠ "true".toList) (h2 : s ≠ "false".toList) : textKind s = 4 := by
  obtain ⟨c, l, rfl, hc, hl⟩ := h
  unfold textKind
  split
  · rename_i heq; cases heq; revert hc; decide
  · rename_i heq; cases heq; have := hl '"' (by simp); revert this; decide
  · rename_i heq; cases heq; revert hc; decide
  · rename_i heq; cases heq
  · rename_i heq; cases heq
    rw [if_neg (alpha_not_digit _ hc), if_neg (by rintro (h | h); exact h1 h; exact h2 h)]

theorem ident_no_comma (s : List Char) (h : IsIdent s) : ',' ∉ s ∧ '(' ∉ s ∧ s ≠ [] := by
  obtain ⟨c, l, rfl, hc, hl⟩ := h
  refine ⟨?_, ?_, by simp⟩ <;>
    (intro hm
     rcases List.mem_cons.1 hm with rfl | hm
     · revert hc; decide
     · have := hl _ hm; revert this; decide)

/-- A text of a simple argument: no comma, not empty. -/
theorem simple_text (sf : F → List Char) (a : FExpr F) (h : SimpleArg a) : ',' ∉ showExpr sf a ∧ showExpr sf a ≠ [] := by
  unfold SimpleArg at h
  split at h
  · rename_i k n
    obtain ⟨h1, h2⟩ := showInt_chars n
    simp only [showExpr, showVal]
    exact ⟨fun hm => by have := h2 _ hm; revert this; decide, h1⟩
  · rename_i b
    cases b <;> simp only [showExpr, showVal] <;> decide
  · simp [showExpr, showVal, h.2]
  · simp [showExpr, showVal, h.2]
  · rename_i x
    simp only [showExpr, showName]
    obtain ⟨h1, _, h2⟩ := ident_no_comma _ h.1
    exact ⟨h1, h2⟩
  · simp [showExpr]
  · exact h.elim

theorem boolText_inj : ∀ x y : Bool, (if x = true then "true".toList else "false".toList) = (if y = true then "true".toList else "false".toList) → x = y := by decide

theorem simple_inj (sf : F → List Char) (a b : FExpr F) (ha : SimpleArg a) (hb : SimpleArg b) (h : showExpr sf a = showExpr sf b) : SameArg a b := by
  have hk := congrArg textKind h
  have hT : ∀ x : String, x ≠ "true" → x.toList ≠ "true".toList := fun x hx hh => hx (String.toList_inj.1 hh)
  have hF : ∀ x : String, x ≠ "false" → x.toList ≠ "false".toList := fun x hx hh => hx (String.toList_inj.1 hh)
  have kb : ∀ b : Bool, textKind (if b = true then "true".toList else "false".toList) = 1 := by decide
  have ks : ∀ l, textKind ('"' :: l) = 2 := fun _ => rfl
  have ky : ∀ l, textKind ('s' :: '"' :: l) = 3 := fun _ => rfl
  unfold SimpleArg at ha hb
  split at ha <;> split at hb <;> (try exact ha.elim) <;> (try exact hb.elim) <;>
    simp only [showExpr, showVal, showName, textKind_int, List.cons_append, kb, ks, ky] at h hk
  all_goals try (rw [textKind_ident _ ha.1 (hT _ ha.2.1) (hF _ ha.2.2)] at hk)
  all_goals try (rw [textKind_ident _ hb.1 (hT _ hb.2.1) (hF _ hb.2.2)] at hk)
  all_goals try (exact absurd hk (by decide))
  · exact .inr ⟨_, _, _, rfl, by rw [showInt_inj h]⟩
  · exact .inl (by rw [boolText_inj _ _ h])
  · simp only [List.cons.injEq, true_and, List.append_cancel_right_eq, String.toList_inj] at h
    exact .inl (by rw [h])
  · simp only [List.cons.injEq, true_and, List.append_cancel_right_eq, String.toList_inj] at h
    exact .inl (by rw [h])
  · rw [String.toList_inj] at h
    exact .inl (by rw [h])
  · exact .inl rfl

theorem showExprs_eq (sf : F → List Char) : ∀ es : List (FExpr F), showExprs sf es = es.map (showExpr sf)
  | [] => rfl
  | e :: es => by rw [showExprs, showExprs_eq sf es, List.map_cons]

theorem simple_all (sf : F → List Char) : ∀ (as bs : List (FExpr F)), (∀ a ∈ as, SimpleArg a) → (∀ b ∈ bs, SimpleArg b) →
    as.map (showExpr sf) = bs.map (showExpr sf) → List.Forall₂ SameArg as bs
  | [], [], _, _, _ => .nil
  | [], b :: bs, _, _, h => by simp at h
  | a :: as, [], _, _, h => by simp at h
  | a :: as, b :: bs, ha, hb, h => by
    simp only [List.map_cons, List.cons.injEq] at h
    exact .cons (simple_inj sf a b (ha a (by simp)) (hb b (by simp)) h.1)
      (simple_all sf as bs (fun x hx => ha x (List.mem_cons_of_mem _ hx)) (fun x hx => hb x (List.mem_cons_of_mem _ hx)) h.2)

end Scallop.Front
