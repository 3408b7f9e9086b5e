import Verif.Proof.GrammarChain
import Verif.Proof.GrammarFormula

/-!
# C112: a text is read in one way, by the usual rules

Expressions and formulas after splitting into tokens.
-/

namespace Scallop.Syn

/-- C112: an expression is read in at most one way. -/
theorem c112_unambiguous {ts : List Tok} {e e' : Ast} (h : Reads ts e) (h' : Reads ts e') : e = e' := by
  obtain ⟨b, h⟩ := h.follows
  obtain ⟨b', h'⟩ := h'.follows
  have := (h.det h').1
  cases this
  rfl

/-- C112: a formula is read in at most one way. -/
theorem c112_unambiguous_formula {ts : List FTok} {f f' : Fml} (h : FReads ts f) (h' : FReads ts f') : f = f' :=
  h.unique h'

/-- C112: every expression can be written, with parentheses, and is read back. -/
theorem c112_written (e : Ast) : ∀ e', Reads (written e) e' ↔ e' = e := by
  have h : Reads (written e) e := unit_ite (written_unit e)
  exact fun e' => ⟨fun h' => c112_unambiguous h' h, fun he => he ▸ h⟩

/-- C112: every formula can be written, with parentheses, and is read back. -/
theorem c112_written_formula (f : Fml) (h : Proper f) : ∀ f', FReads (fwritten f) f' ↔ f' = f := by
  have h1 : FReads (fwritten f) f := .formulaOf (.impliesOf (.disjOf (.conjOf (fwritten_ann f h))))
  exact fun f' => ⟨fun h' => h'.unique h1, fun he => he ▸ h1⟩

/-- C112: `x o₁ y₁ o₂ y₂ …` is read exactly as grouped by the strength of the operators: products, sums,
comparisons, logical operators; to the left among equals. -/
theorem c112_precedence {x : Operand} {l : List (BinOp × Operand)} (hx : AllOperands x l) (e : Ast) :
    Reads (chainTokens x l) e ↔ Groups x l e :=
  ⟨fun h => h.groups hx, fun h => .iteOf (h.derived hx 0 (fun _ _ => Nat.zero_le _) (by omega))⟩

/-- C112: such a text is refused exactly if it compares twice between logical operators. -/
theorem c112_comparisons {x : Operand} {l : List (BinOp × Operand)} (hx : AllOperands x l) :
    (∃ e, Reads (chainTokens x l) e) ↔ OneComparison false l := by
  constructor
  · rintro ⟨e, h⟩
    exact (h.groups hx).oneComparison
  · intro h
    obtain ⟨e, g⟩ := h.groups (x := x) (Nat.le_refl _)
    exact ⟨e, (c112_precedence hx e).2 g⟩

/-- C112: the last branch of a conditional reaches as far as possible; its condition is a whole chain of
operators. -/
theorem c112_conditional {x : Operand} {l : List (BinOp × Operand)} (hx : AllOperands x l) {c : Ast}
    (hc : Groups x l c) {t e : List Tok} {t' e' : Ast} (ht : Reads t t') (he : Reads e e') (a : Ast) :
    (Reads (chainTokens x l ++ .sym .quest :: t ++ .sym .colon :: e) a ↔ a = .ite c t' e') ∧
    (Reads (.sym .if_ :: chainTokens x l ++ .sym .then_ :: t ++ .sym .else_ :: e) a ↔ a = .ite c t' e') := by
  have hd : D .andOr (chainTokens x l) (.one c) := hc.derived hx 0 (fun _ _ => Nat.zero_le _) (by omega)
  have h1 : Reads (chainTokens x l ++ .sym .quest :: t ++ .sym .colon :: e) (.ite c t' e') :=
    .iteOfB (.question hd ht he)
  have h2 : Reads (.sym .if_ :: chainTokens x l ++ .sym .then_ :: t ++ .sym .else_ :: e) (.ite c t' e') :=
    .iteOfB (.ifThenElse hd ht he)
  exact ⟨⟨fun h => c112_unambiguous h h1, fun h => h ▸ h1⟩, ⟨fun h => c112_unambiguous h h2, fun h => h ▸ h2⟩⟩

/-- C112: arguments may end with a comma, which means nothing. -/
theorem c112_trailing_comma {f : String} {t : List Tok} {e : Ast} (h : Reads t e) (a : Ast) :
    (Reads (.sym .dollar :: .name f :: .sym .lpar :: t ++ [.sym .rpar]) a ↔ a = .call f [e]) ∧
    (Reads (.sym .dollar :: .name f :: .sym .lpar :: t ++ [.sym .comma, .sym .rpar]) a ↔ a = .call f [e]) := by
  have h1 : Reads (.sym .dollar :: .name f :: .sym .lpar :: t ++ [.sym .rpar]) (.call f [e]) :=
    unit_ite (.call (.lastArg h))
  have h2 : Reads (.sym .dollar :: .name f :: .sym .lpar :: t ++ [.sym .comma, .sym .rpar]) (.call f [e]) := by
    have := D.call (f := f) (.arg h .noArg)
    simpa [Reads] using unit_ite this
  exact ⟨⟨fun h => c112_unambiguous h h1, fun h => h ▸ h1⟩, ⟨fun h => c112_unambiguous h h2, fun h => h ▸ h2⟩⟩

/-- C112: an expression followed by something that is no operator is not an expression; in particular
`x -1`, which is a name and the literal `-1`. -/
theorem c112_adjacent {ts : List Tok} {e : Ast} (h : Reads ts e) {t : Tok} (ht : t ≠ .sym .quest ∧ t ≠ .sym .as_ ∧
    ∀ o : BinOp, t ≠ .sym o.sym) (r : List Tok) : ¬ ∃ a, Reads (ts ++ t :: r) a := by
  rintro ⟨a, h'⟩
  have h0 : tight t < 1 := by
    obtain ⟨h1, h2, h3⟩ := ht
    cases t with
    | sym s =>
      cases s <;> simp [tight] <;>
        first
        | exact h1 rfl
        | exact h2 rfl
        | exact h3 .mul rfl
        | exact h3 .div rfl
        | exact h3 .mod rfl
        | exact h3 .add rfl
        | exact h3 .sub rfl
        | exact h3 .eq rfl
        | exact h3 .neq rfl
        | exact h3 .lt rfl
        | exact h3 .leq rfl
        | exact h3 .gt rfl
        | exact h3 .geq rfl
        | exact h3 .and rfl
        | exact h3 .or rfl
        | exact h3 .xor rfl
    | name n => simp [tight]
    | lit c => simp [tight]
    | ty c => simp [tight]
  obtain ⟨b, f⟩ := D.follows h
  obtain ⟨b', g⟩ := h'.follows
  have := (P.det (f _ (stops_cons h0)) g).2.2
  cases this

/-- C112 refuted: conjunction does not bind more strongly than disjunction; `a || b && c` is
`(a || b) && c`. -/
theorem c112_and_or_false (a b c : String) (e : Ast) :
    Reads [.name a, .sym .oror, .name b, .sym .andand, .name c] e ↔
      e = .bin .and (.bin .or (.var a) (.var b)) (.var c) := by
  have hx : AllOperands ([.name a], .var a) [(.or, ([.name b], .var b)), (.and, ([.name c], .var c))] :=
    ⟨.unaryOf .var, by
      intro p hp
      simp only [List.mem_cons, List.not_mem_nil, or_false] at hp
      rcases hp with rfl | rfl <;> exact .unaryOf .var⟩
  have g : Groups ([.name a], .var a) [(.or, ([.name b], .var b)), (.and, ([.name c], .var c))]
      (.bin .and (.bin .or (.var a) (.var b)) (.var c)) := by
    have g1 : Groups ([.name a], .var a) ([] ++ [(BinOp.or, ([Tok.name b], Ast.var b))]) (.bin .or (.var a) (.var b)) :=
      .node (.one ([.name a], .var a)) (.one ([.name b], .var b)) (by simp) (by simp)
    exact .node (l := [(.or, ([.name b], .var b))]) g1 (.one ([.name c], .var c))
      (by intro p hp; simp at hp; subst hp; exact Or.inr ⟨rfl, by simp [BinOp.level]⟩) (by simp)
  have h := (c112_precedence hx _).2 g
  exact ⟨fun h' => c112_unambiguous h' h, fun he => he ▸ h⟩

/-- C112 refuted: parentheses may not be put around a name, a literal, a call or an expression that already
has parentheses. -/
theorem c112_parentheses_false {u : List Tok} {o : Out} (h : D .unit u o) :
    ¬ ∃ e, Reads (.sym .lpar :: u ++ [.sym .rpar]) e := by
  rintro ⟨e, h'⟩
  obtain ⟨b, g⟩ := h'.follows
  obtain ⟨_, _, _, _, _, _, g1, _⟩ := g.first (by simp)
  have aux : ∀ {o b r}, ¬ P .unit (.sym .lpar :: (u ++ [.sym .rpar])) o b r := by
    intro o b r g
    cases g with
    | paren g =>
      have := (P.det g (unit_P h (stops_cons (by simp [tight])))).2.1
      cases this
  cases g1 with
  | «prefix» u' _ => simp [unOp] at u'
  | unitOnly g _ => exact aux g
  | cast g _ => exact aux g

/-- C112 refuted: a prefix operator or a cast may not be applied to another one without parentheses:
`- -x`, `!!x`, `x as i64 as f32` and `-x as i64` are refused. -/
theorem c112_unary_false {s s' : Sym} {o o' : UnOp} (hs : unOp s = some o) (hs' : unOp s' = some o') (r : List Tok)
    {u : List Tok} {a : Out} (hu : D .unit u a) (k k' : Tok) :
    (¬ ∃ e, Reads (.sym s :: .sym s' :: r) e) ∧ (¬ ∃ e, Reads (u ++ [.sym .as_, k] ++ [.sym .as_, k']) e) ∧
    (¬ ∃ e, Reads (.sym s :: u ++ [.sym .as_, k]) e) := by
  have hif : ∀ {s : Sym} {o : UnOp} {r : List Tok}, unOp s = some o → (Tok.sym s :: r).head? ≠ some (.sym .if_) := by
    intro s o r h; simp; rintro rfl; simp [unOp] at h
  have hun : ∀ {s : Sym} {o : UnOp} {r : List Tok} {q b r'}, unOp s = some o → ¬ P .unit (.sym s :: r) q b r' := by
    intro s o r q b r' h g
    cases g <;> simp [unOp] at h
  refine ⟨?_, ?_, ?_⟩
  · rintro ⟨e, h⟩
    obtain ⟨b, g⟩ := h.follows
    obtain ⟨_, _, _, _, _, _, g1, _⟩ := g.first (hif hs)
    cases g1 with
    | «prefix» u' g => exact hun hs' g
    | unitOnly g _ => exact hun hs g
    | cast g _ => exact hun hs g
  · rintro ⟨e, h⟩
    obtain ⟨b, g⟩ := h.follows
    have e1 : u ++ [.sym .as_, k] ++ [.sym .as_, k'] = u ++ (.sym .as_ :: k :: .sym .as_ :: [k']) := by simp
    rw [e1] at g
    have hf : ∀ rest, P .unit (u ++ rest) a false rest := hu.follows
    obtain ⟨_, _, _, _, _, _, g1, g2⟩ := g.first (head_ne_if hu (by simp) _)
    generalize hts : u ++ (.sym .as_ :: k :: .sym .as_ :: [k']) = ts at g1
    cases g1 with
    | «prefix» u' g =>
      have := hf (.sym .as_ :: k :: .sym .as_ :: [k'])
      rw [hts] at this
      exact hun u' this
    | unitOnly g s =>
      subst hts
      have := (P.det g (hf _)).2.2
      subst this
      exact absurd (s _ _ rfl) (by simp [tight])
    | cast g _ =>
      subst hts
      have := (P.det g (hf _)).2.2
      simp only [List.cons.injEq] at this
      obtain ⟨-, -, rfl⟩ := this
      exact not_cast g2
  · rintro ⟨e, h⟩
    obtain ⟨b, g⟩ := h.follows
    have hf : ∀ rest, P .unit (u ++ rest) a false rest := hu.follows
    obtain ⟨_, _, _, _, _, _, g1, g2⟩ := g.first (hif hs)
    cases g1 with
    | «prefix» u' g =>
      have := (P.det g (hf _)).2.2
      subst this
      exact not_cast g2
    | unitOnly g _ => exact hun hs g
    | cast g _ => exact hun hs g

/-- C112 (shown expressions): what the debugging output shows is read back as the same expression if no
conditional is an operand or a condition.

Missing: other expressions, for which `c112_shown_false` shows that it fails. -/
theorem c112_shown_partial (e : Ast) (h : NoInnerIte e) (e' : Ast) : Reads (shown e) e' ↔ e' = e := by
  have h1 : Reads (shown e) e := shown_ite e h
  exact ⟨fun h' => c112_unambiguous h' h1, fun he => he ▸ h1⟩

/-- C112 refuted: a conditional that is an operand is shown without parentheses; the text is another
expression. -/
theorem c112_shown_false (a b c d : String) (e : Ast) :
    Reads (shown (.bin .add (.ite (.var a) (.var b) (.var c)) (.var d))) e ↔
      e = .ite (.var a) (.var b) (.bin .add (.var c) (.var d)) := by
  have h : Reads (shown (.bin .add (.ite (.var a) (.var b) (.var c)) (.var d)))
      (.ite (.var a) (.var b) (.bin .add (.var c) (.var d))) := by
    have v : ∀ n, D .unit [.name n] (.one (.var n)) := fun _ => .var
    have := D.paren (.complexIte (.ifThenElse (unit_ntOf (v a) 0 (by omega)) (unit_ite (v b))
      (.iteOf (.andOrOf (.cmpOf (.addOfB (.add (unit_ntOf (v c) 2 (by omega)) (s := .plus) rfl
        (unit_ntOf (v d) 3 (by omega)))))))))
    simpa [Reads, shown, BinOp.sym] using unit_ite this
  exact ⟨fun h' => c112_unambiguous h' h, fun he => he ▸ h⟩

/-- C112: `and` binds more strongly than `or`, which binds more strongly than `=>`. -/
theorem c112_connectives {ds ds' : List (List FOperand)} (h : IsDnf ds) (h' : IsDnf ds') (f : Fml) :
    (FReads (dnfTokens ds) f ↔ f = dnfMeaning ds) ∧
    (FReads (dnfTokens ds ++ .implies :: dnfTokens ds') f ↔ f = .implies (dnfMeaning ds) (dnfMeaning ds')) := by
  have h1 : FReads (dnfTokens ds) (dnfMeaning ds) := .formulaOf (.impliesOf (dnf_disj ds h))
  have h2 : FReads (dnfTokens ds ++ .implies :: dnfTokens ds') (.implies (dnfMeaning ds) (dnfMeaning ds')) :=
    .formulaOf (.impliesOfB (.implies (dnf_disj ds h) (dnf_disj ds' h')))
  exact ⟨⟨fun g => g.unique h1, fun he => he ▸ h1⟩, ⟨fun g => g.unique h2, fun he => he ▸ h2⟩⟩

/-- C112: commas between operands mean the same as `and`. -/
theorem c112_comma (xs : List FOperand) (hne : xs ≠ []) (h : ∀ x ∈ xs, IsFOperand x) (f : Fml) :
    FReads (joined .comma (xs.map (·.1))) f ↔ FReads (joined .and (xs.map (·.1))) f := by
  have h1 := comma_reads xs hne h
  have h2 : FReads (joined .and (xs.map (·.1))) (several .conj (xs.map (·.2))) :=
    .formulaOf (.impliesOf (.disjOf (conj_reads xs hne h)))
  exact ⟨fun g => g.unique h1 ▸ h2, fun g => g.unique h2 ▸ h1⟩

/-- C112: parentheses around several operands with commas or `and`, or around a negated atom, change nothing. -/
theorem c112_parentheses (xs : List FOperand) (hlen : 2 ≤ xs.length) (h : ∀ x ∈ xs, IsFOperand x) (a : String) (f : Fml) :
    (FReads (.lpar :: joined .comma (xs.map (·.1)) ++ [.rpar]) f ↔ FReads (joined .comma (xs.map (·.1))) f) ∧
    (FReads (.lpar :: joined .and (xs.map (·.1)) ++ [.rpar]) f ↔ FReads (joined .and (xs.map (·.1))) f) ∧
    (FReads [.lpar, .not, .atom a, .rpar] f ↔ FReads [.not, .atom a] f) := by
  have up : ∀ {t o}, FD .unit t o → FD .formula t o :=
    fun h => .formulaOf (.impliesOf (.disjOf (.conjOf (.annotatedOf h))))
  have n1 : FReads [.lpar, .not, .atom a, .rpar] (.neg a) := up (.paren (.complexNeg .neg))
  have n2 : FReads [.not, .atom a] (.neg a) := .formulaOf (.impliesOf (.disjOf (.conjOf (.annotatedNeg .neg))))
  have hne : xs ≠ [] := by rintro rfl; simp at hlen
  have c2 := comma_reads xs hne h
  have a2 : FReads (joined .and (xs.map (·.1))) (several .conj (xs.map (·.2))) :=
    .formulaOf (.impliesOf (.disjOf (conj_reads xs hne h)))
  have ca1 : FReads (.lpar :: joined .comma (xs.map (·.1)) ++ [.rpar]) (several .conj (xs.map (·.2))) ∧
      FReads (.lpar :: joined .and (xs.map (·.1)) ++ [.rpar]) (several .conj (xs.map (·.2))) := by
    match xs, hlen, h with
    | x :: y :: xs, _, h =>
      have h' : ∀ z ∈ y :: xs, IsFOperand z := fun z hz => h z (by simp at hz; simp [hz])
      have t1 := up (.paren (.complexComma (.comma (h x (by simp)) (commaList y xs h'))))
      have t2 := up (.paren (.complexConj (.conj (h x (by simp)) (andList y xs h'))))
      exact ⟨by simpa [joined, several, FReads] using t1, by simpa [joined, several, FReads] using t2⟩
  exact ⟨⟨fun g => g.unique ca1.1 ▸ c2, fun g => g.unique c2 ▸ ca1.1⟩,
    ⟨fun g => g.unique ca1.2 ▸ a2, fun g => g.unique a2 ▸ ca1.2⟩,
    ⟨fun g => g.unique n1 ▸ n2, fun g => g.unique n2 ▸ n1⟩⟩

/-- C112 refuted: commas do not mix with other connectives, only atoms can be negated, an implication is no
operand of another one, and an atom may not be put in parentheses. -/
theorem c112_formulas_false (a b c : String) :
    (¬ ∃ f, FReads [.atom a, .comma, .atom b, .or, .atom c] f) ∧
    (¬ ∃ f, FReads [.not, .lpar, .atom a, .and, .atom b, .rpar] f) ∧
    (¬ ∃ f, FReads [.atom a, .implies, .atom b, .implies, .atom c] f) ∧
    (¬ ∃ f, FReads [.lpar, .atom a, .rpar] f) := by
  have hat : ∀ a r, FP .ann (.atom a :: r) (.one (.atom a)) false r := fun a r => .annOf .atom
  have hdis : ∀ a r, r.head? ≠ some .and → r.head? ≠ some .or →
      FP .disj (.atom a :: r) (.one (.atom a)) false r := by
    intro a r h h'
    have := FP.disj (FP.conj (hat a r) (.conjStop h)) (.disjStop h')
    simpa [several] using this
  refine ⟨?_, ?_, ?_, ?_⟩
  · rintro ⟨f, h⟩
    obtain ⟨_, g⟩ := h.follows
    have hc : FP .formula [.atom a, .comma, .atom b, .or, .atom c] (.one (.conj [.atom a, .atom b])) true
        [.or, .atom c] := .fComma (hat _ _) (.commaStep (hat _ _) (.commaStop (by simp)))
    have := (hc.det g).2.2
    cases this
  · rintro ⟨f, h⟩
    obtain ⟨_, g⟩ := h.follows
    have hn : ∀ {o k r}, ¬ FP .ann [.not, .lpar, .atom a, .and, .atom b, .rpar] o k r := by
      intro o b r g
      cases g with
      | annOf g => cases g
    cases g with
    | fComma g _ => exact hn g
    | fImplies g _ => cases g with | disj g _ => cases g with | conj g _ => exact hn g
    | fOf g _ _ => cases g with | disj g _ => cases g with | conj g _ => exact hn g
  · rintro ⟨f, h⟩
    obtain ⟨_, g⟩ := h.follows
    have hc : FP .formula [.atom a, .implies, .atom b, .implies, .atom c] (.one (.implies (.atom a) (.atom b))) true
        [.implies, .atom c] := .fImplies (hdis _ _ (by simp) (by simp)) (hdis _ _ (by simp) (by simp))
    have := (hc.det g).2.2
    cases this
  · rintro ⟨f, h⟩
    obtain ⟨_, g⟩ := h.follows
    have hi : FP .formula [.atom a, .rpar] (.one (.atom a)) false [.rpar] :=
      .fOf (hdis _ _ (by simp) (by simp)) (by simp) (by simp)
    have hn : ∀ {o k r}, ¬ FP .ann [.lpar, .atom a, .rpar] o k r := by
      intro o b r g
      cases g with
      | annOf g =>
        cases g with
        | paren g => have := (g.det hi).2.1; cases this
    cases g with
    | fComma g _ => exact hn g
    | fImplies g _ => cases g with | disj g _ => cases g with | conj g _ => exact hn g
    | fOf g _ _ => cases g with | disj g _ => cases g with | conj g _ => exact hn g

/-! ### The hypotheses are met -/

/-- `x - 1 * -y` has operands. -/
example : AllOperands ([.name "x"], .var "x")
    [(.sub, ([.lit "1"], .lit "1")), (.mul, ([.sym .minus, .name "y"], .un .neg (.var "y")))] :=
  ⟨.unaryOf .var, by
    intro p hp
    simp only [List.mem_cons, List.not_mem_nil, or_false] at hp
    rcases hp with rfl | rfl
    · exact .unaryOf .lit
    · exact .unaryOfB (.prefix rfl .var)⟩

/-- `x - 1 * y` is grouped as `x - (1 * y)`. -/
example : Groups ([.name "x"], .var "x") [(.sub, ([.lit "1"], .lit "1")), (.mul, ([.name "y"], .var "y"))]
    (.bin .sub (.var "x") (.bin .mul (.lit "1") (.var "y"))) := by
  have g : Groups ([.lit "1"], .lit "1") ([] ++ [(BinOp.mul, ([Tok.name "y"], Ast.var "y"))])
      (.bin .mul (.lit "1") (.var "y")) :=
    .node (.one ([.lit "1"], .lit "1")) (.one ([.name "y"], .var "y")) (by simp) (by simp)
  exact .node (l := []) (.one ([.name "x"], .var "x")) g (by simp) (by simp [BinOp.level])

/-- A condition with a comparison on either side of `&&` is not refused, two comparisons in a row are. -/
example (x : Operand) : OneComparison false [(.lt, x), (.and, x), (.eq, x)] ∧
    ¬ OneComparison false [(.lt, x), (.add, x), (.lt, x)] := by
  simp [OneComparison, BinOp.level]

/-- A conditional as the branch of a conditional. -/
example : NoInnerIte (.ite (.var "a") (.ite (.var "b") (.lit "1") (.lit "2")) (.bin .add (.var "c") (.lit "3"))) := by
  simp [NoInnerIte, NoIte]

/-- `p, not q` in disjunctive form. -/
example : IsDnf [[([.atom "p"], .atom "p"), ([.not, .atom "q"], .neg "q")], [([.other "x == 1"], .other "x == 1")]] := by
  refine ⟨by simp, ?_⟩
  intro c hc
  simp only [List.mem_cons, List.not_mem_nil, or_false] at hc
  rcases hc with rfl | rfl
  · refine ⟨by simp, ?_⟩
    intro x hx
    simp only [List.mem_cons, List.not_mem_nil, or_false] at hx
    rcases hx with rfl | rfl
    · exact .annotatedOf .atom
    · exact .annotatedNeg .neg
  · refine ⟨by simp, ?_⟩
    intro x hx
    simp only [List.mem_cons, List.not_mem_nil, or_false] at hx
    subst hx
    exact .annotatedOf .other

/-- A formula with every connective. -/
example : Proper (.implies (.conj [.atom "p", .neg "q"]) (.disj [.other "x == 1", .conj [.atom "r", .atom "s"]])) := by
  simp [Proper, ProperAll]

/-- A unit. -/
example : D .unit [.sym .dollar, .name "f", .sym .lpar, .sym .rpar] (.one (.call "f" [])) := .call .noArg

end Scallop.Syn
