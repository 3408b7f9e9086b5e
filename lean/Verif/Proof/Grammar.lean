import Verif.Model.Grammar

/-!
# A deterministic reading of expressions

The relation `P` describes a parser that reads from left to right and never goes back: at most one of
its rules applies.  Every derivation of the grammar is followed by it, so the grammar is unambiguous.
-/

namespace Scallop.Syn

/-- How strongly a token continues an expression to its left. -/
def tight : Tok → Nat
  | .sym .as_ => 6
  | .sym .star => 5
  | .sym .slash => 5
  | .sym .percent => 5
  | .sym .plus => 4
  | .sym .minus => 4
  | .sym .eqeq => 3
  | .sym .neq => 3
  | .sym .lt => 3
  | .sym .leq => 3
  | .sym .gt => 3
  | .sym .geq => 3
  | .sym .andand => 2
  | .sym .oror => 2
  | .sym .caret => 2
  | .sym .quest => 1
  | _ => 0

/-- The rest does not continue an expression with strength `k` or more. -/
def Stops (k : Nat) (r : List Tok) : Prop := ∀ t r', r = t :: r' → tight t < k

theorem Stops.mono {j k : Nat} {r : List Tok} (h : j ≤ k) (s : Stops j r) : Stops k r :=
  fun t r' e => Nat.lt_of_lt_of_le (s t r' e) h

theorem stops_nil (k : Nat) : Stops k [] := by intro t r' h; cases h

theorem stops_cons {k : Nat} {t : Tok} {r : List Tok} (h : tight t < k) : Stops k (t :: r) := by
  intro t' r' e; cases e; exact h

theorem tight_mul {s : Sym} {o : BinOp} (h : mulOp s = some o) : tight (.sym s) = 5 := by
  cases s <;> simp_all [mulOp, tight]

theorem tight_add {s : Sym} {o : BinOp} (h : addOp s = some o) : tight (.sym s) = 4 := by
  cases s <;> simp_all [addOp, tight]

theorem tight_cmp {s : Sym} {o : BinOp} (h : cmpOp s = some o) : tight (.sym s) = 3 := by
  cases s <;> simp_all [cmpOp, tight]

theorem tight_andOr {s : Sym} {o : BinOp} (h : andOrOp s = some o) : tight (.sym s) = 2 := by
  cases s <;> simp_all [andOrOp, tight]

/-- What is being read. -/
inductive Q
  | unit | unary
  | mul | mulL (acc : Ast) (b : Bool)
  | add | addL (acc : Ast) (b : Bool)
  | cmp
  | andOr | andOrL (acc : Ast) (b : Bool)
  | ite | args

/-- `P q ts o b r`: reading `q` from the tokens `ts` gives `o` and leaves `r`; `b` tells whether what was
read is more than a unit. -/
inductive P : Q → List Tok → Out → Bool → List Tok → Prop
  | lit {c r} : P .unit (.lit c :: r) (.one (.lit c)) false r
  | var {n r} : P .unit (.name n :: r) (.one (.var n)) false r
  | wild {r} : P .unit (.sym .wild :: r) (.one .wild) false r
  | paren {r o r'} : P .ite r o true (.sym .rpar :: r') → P .unit (.sym .lpar :: r) o false r'
  | call {f r es r'} : P .args r (.many es) false (.sym .rpar :: r') →
      P .unit (.sym .dollar :: .name f :: .sym .lpar :: r) (.one (.call f es)) false r'
  | new {f r es r'} : P .args r (.many es) false (.sym .rpar :: r') →
      P .unit (.sym .new_ :: .name f :: .sym .lpar :: r) (.one (.new f es)) false r'
  | prefix {s o r e r'} : unOp s = some o → P .unit r (.one e) false r' →
      P .unary (.sym s :: r) (.one (.un o e)) true r'
  | unitOnly {ts o r} : P .unit ts o false r → Stops 6 r → P .unary ts o false r
  | cast {ts e k t r} : P .unit ts (.one e) false (.sym .as_ :: k :: r) → tyTok k = some t →
      P .unary ts (.one (.cast e t)) true r
  | mul {ts e b r o b' r'} : P .unary ts (.one e) b r → P (.mulL e b) r o b' r' → P .mul ts o b' r'
  | mulStop {e b r} : Stops 5 r → P (.mulL e b) r (.one e) b r
  | mulStep {e b s op r e' b' r' o b'' r''} : mulOp s = some op → P .unary r (.one e') b' r' →
      P (.mulL (.bin op e e') true) r' o b'' r'' → P (.mulL e b) (.sym s :: r) o b'' r''
  | add {ts e b r o b' r'} : P .mul ts (.one e) b r → P (.addL e b) r o b' r' → P .add ts o b' r'
  | addStop {e b r} : Stops 4 r → P (.addL e b) r (.one e) b r
  | addStep {e b s op r e' b' r' o b'' r''} : addOp s = some op → P .mul r (.one e') b' r' →
      P (.addL (.bin op e e') true) r' o b'' r'' → P (.addL e b) (.sym s :: r) o b'' r''
  | cmpOnly {ts o b r} : P .add ts o b r → Stops 3 r → P .cmp ts o b r
  | cmp {ts e b s op r e' b' r'} : P .add ts (.one e) b (.sym s :: r) → cmpOp s = some op →
      P .add r (.one e') b' r' → P .cmp ts (.one (.bin op e e')) true r'
  | andOr {ts e b r o b' r'} : P .cmp ts (.one e) b r → P (.andOrL e b) r o b' r' → P .andOr ts o b' r'
  | andOrStop {e b r} : Stops 2 r → P (.andOrL e b) r (.one e) b r
  | andOrStep {e b s op r e' b' r' o b'' r''} : andOrOp s = some op → P .cmp r (.one e') b' r' →
      P (.andOrL (.bin op e e') true) r' o b'' r'' → P (.andOrL e b) (.sym s :: r) o b'' r''
  | ifThenElse {r c b r1 t b1 r2 e b2 r3} : P .andOr r (.one c) b (.sym .then_ :: r1) →
      P .ite r1 (.one t) b1 (.sym .else_ :: r2) → P .ite r2 (.one e) b2 r3 →
      P .ite (.sym .if_ :: r) (.one (.ite c t e)) true r3
  | question {ts c b r1 t b1 r2 e b2 r3} : ts.head? ≠ some (.sym .if_) →
      P .andOr ts (.one c) b (.sym .quest :: r1) →
      P .ite r1 (.one t) b1 (.sym .colon :: r2) → P .ite r2 (.one e) b2 r3 →
      P .ite ts (.one (.ite c t e)) true r3
  | iteOnly {ts o b r} : ts.head? ≠ some (.sym .if_) → P .andOr ts o b r → Stops 1 r → P .ite ts o b r
  | noArg {r} : P .args (.sym .rpar :: r) (.many []) false (.sym .rpar :: r)
  | lastArg {ts e b r} : ts.head? ≠ some (.sym .rpar) → P .ite ts (.one e) b (.sym .rpar :: r) →
      P .args ts (.many [e]) false (.sym .rpar :: r)
  | arg {ts e b r es r'} : ts.head? ≠ some (.sym .rpar) → P .ite ts (.one e) b (.sym .comma :: r) →
      P .args r (.many es) false r' → P .args ts (.many (e :: es)) false r'

/-- Reading is deterministic. -/
theorem P.det {q : Q} {ts : List Tok} {o o' : Out} {b b' : Bool} {r r' : List Tok}
    (h : P q ts o b r) (h' : P q ts o' b' r') : o = o' ∧ b = b' ∧ r = r' := by
  induction h generalizing o' b' r' with
  | lit => cases h'; simp
  | var => cases h'; simp
  | wild => cases h'; simp
  | paren _ ih => cases h' with | paren h => have := ih h; simp_all
  | call _ ih => cases h' with | call h => have := ih h; simp_all
  | new _ ih => cases h' with | new h => have := ih h; simp_all
  | «prefix» u _ ih =>
    cases h' with
    | «prefix» u' h => have := ih h; simp_all
    | unitOnly h _ => cases h <;> simp [unOp] at u
    | cast h _ => cases h <;> simp [unOp] at u
  | unitOnly hp s ih =>
    cases h' with
    | «prefix» u' h => cases hp <;> simp [unOp] at u'
    | unitOnly h _ => exact ih h
    | cast h _ =>
      have := (ih h).2.2
      exact absurd (s _ _ this) (by simp [tight])
  | cast hp u ih =>
    cases h' with
    | «prefix» u' h => cases hp <;> simp [unOp] at u'
    | unitOnly h s =>
      have := (ih h).2.2
      exact absurd (s _ _ this.symm) (by simp [tight])
    | cast h u' => have := ih h; simp_all
  | mul _ _ ih1 ih2 =>
    cases h' with
    | mul h1 h2 =>
      obtain ⟨e1, e2, e3⟩ := ih1 h1
      cases e1; subst e2; subst e3
      exact ih2 h2
  | mulStop s =>
    cases h' with
    | mulStop _ => simp
    | mulStep u h1 h2 => exact absurd (s _ _ rfl) (by simp [tight_mul u])
  | mulStep u _ _ ih1 ih2 =>
    cases h' with
    | mulStop s => exact absurd (s _ _ rfl) (by simp [tight_mul u])
    | mulStep u' h1 h2 =>
      obtain ⟨e1, e2, e3⟩ := ih1 h1
      cases e1; subst e2; subst e3
      rw [u] at u'; cases u'
      exact ih2 h2
  | add _ _ ih1 ih2 =>
    cases h' with
    | add h1 h2 =>
      obtain ⟨e1, e2, e3⟩ := ih1 h1
      cases e1; subst e2; subst e3
      exact ih2 h2
  | addStop s =>
    cases h' with
    | addStop _ => simp
    | addStep u h1 h2 => exact absurd (s _ _ rfl) (by simp [tight_add u])
  | addStep u _ _ ih1 ih2 =>
    cases h' with
    | addStop s => exact absurd (s _ _ rfl) (by simp [tight_add u])
    | addStep u' h1 h2 =>
      obtain ⟨e1, e2, e3⟩ := ih1 h1
      cases e1; subst e2; subst e3
      rw [u] at u'; cases u'
      exact ih2 h2
  | cmpOnly _ s ih =>
    cases h' with
    | cmpOnly h _ => exact ih h
    | cmp h u _ =>
      have := (ih h).2.2
      exact absurd (s _ _ this) (by simp [tight_cmp u])
  | cmp _ u _ ih1 ih2 =>
    cases h' with
    | cmpOnly h s =>
      have := (ih1 h).2.2
      exact absurd (s _ _ this.symm) (by simp [tight_cmp u])
    | cmp h u' h2 =>
      obtain ⟨e1, e2, e3⟩ := ih1 h
      cases e1; subst e2; cases e3
      rw [u] at u'; cases u'
      obtain ⟨e1, e2, e3⟩ := ih2 h2
      cases e1; subst e2; cases e3
      simp
  | andOr _ _ ih1 ih2 =>
    cases h' with
    | andOr h1 h2 =>
      obtain ⟨e1, e2, e3⟩ := ih1 h1
      cases e1; subst e2; subst e3
      exact ih2 h2
  | andOrStop s =>
    cases h' with
    | andOrStop _ => simp
    | andOrStep u h1 h2 => exact absurd (s _ _ rfl) (by simp [tight_andOr u])
  | andOrStep u _ _ ih1 ih2 =>
    cases h' with
    | andOrStop s => exact absurd (s _ _ rfl) (by simp [tight_andOr u])
    | andOrStep u' h1 h2 =>
      obtain ⟨e1, e2, e3⟩ := ih1 h1
      cases e1; subst e2; subst e3
      rw [u] at u'; cases u'
      exact ih2 h2
  | ifThenElse _ _ _ ih1 ih2 ih3 =>
    cases h' with
    | ifThenElse h1 h2 h3 =>
      obtain ⟨e1, e2, e3⟩ := ih1 h1
      cases e1; subst e2; cases e3
      obtain ⟨e1, e2, e3⟩ := ih2 h2
      cases e1; subst e2; cases e3
      obtain ⟨e1, e2, e3⟩ := ih3 h3
      cases e1; subst e2; cases e3
      simp
    | question n _ _ _ => simp at n
    | iteOnly n _ _ => simp at n
  | question n _ _ _ ih1 ih2 ih3 =>
    cases h' with
    | ifThenElse h1 h2 h3 => simp at n
    | question _ h1 h2 h3 =>
      obtain ⟨e1, e2, e3⟩ := ih1 h1
      cases e1; subst e2; cases e3
      obtain ⟨e1, e2, e3⟩ := ih2 h2
      cases e1; subst e2; cases e3
      obtain ⟨e1, e2, e3⟩ := ih3 h3
      cases e1; subst e2; cases e3
      simp
    | iteOnly _ h s =>
      have := (ih1 h).2.2
      exact absurd (s _ _ this.symm) (by simp [tight])
  | iteOnly n _ s ih =>
    cases h' with
    | ifThenElse h1 h2 h3 => simp at n
    | question _ h1 h2 h3 =>
      have := (ih h1).2.2
      exact absurd (s _ _ this) (by simp [tight])
    | iteOnly _ h _ => exact ih h
  | noArg =>
    cases h' with
    | noArg => simp
    | lastArg n _ => simp at n
    | arg n _ _ => simp at n
  | lastArg n _ ih =>
    cases h' with
    | noArg => simp at n
    | lastArg _ h =>
      obtain ⟨e1, e2, e3⟩ := ih h
      cases e1; subst e2; cases e3
      simp
    | arg _ h _ => have := (ih h).2.2; simp at this
  | arg n _ _ ih1 ih2 =>
    cases h' with
    | noArg => simp at n
    | lastArg _ h => have := (ih1 h).2.2; simp at this
    | arg _ h h2 =>
      obtain ⟨e1, e2, e3⟩ := ih1 h
      cases e1; subst e2; cases e3
      obtain ⟨e1, e2, e3⟩ := ih2 h2
      cases e1; subst e3
      simp

/-- How what a nonterminal derives begins. -/
def Begins : NT → List Tok → Prop
  | .args, _ => True
  | .ite, ts => ∃ t r, ts = t :: r ∧ t ≠ .sym .rpar
  | .iteB, ts => ∃ t r, ts = t :: r ∧ t ≠ .sym .rpar
  | .complex, ts => ∃ t r, ts = t :: r ∧ t ≠ .sym .rpar
  | _, ts => ∃ t r, ts = t :: r ∧ t ≠ .sym .rpar ∧ t ≠ .sym .if_

theorem D.begins {n : NT} {ts : List Tok} {o : Out} (h : D n ts o) : Begins n ts := by
  induction h with
  | ifThenElse => exact ⟨_, _, rfl, by simp⟩
  | question _ _ _ ih _ _ => obtain ⟨t, r, rfl, h1, h2⟩ := ih; exact ⟨t, _, rfl, h1⟩
  | iteOfB _ ih => exact ih
  | iteOf _ ih => obtain ⟨t, r, rfl, h1, h2⟩ := ih; exact ⟨t, _, rfl, h1⟩
  | andOr _ _ _ ih _ => obtain ⟨t, r, rfl, h⟩ := ih; exact ⟨t, _, rfl, h⟩
  | andOrOfB _ ih => exact ih
  | andOrOf _ ih => exact ih
  | cmp _ _ _ ih _ => obtain ⟨t, r, rfl, h⟩ := ih; exact ⟨t, _, rfl, h⟩
  | cmpOfB _ ih => exact ih
  | cmpOf _ ih => exact ih
  | add _ _ _ ih _ => obtain ⟨t, r, rfl, h⟩ := ih; exact ⟨t, _, rfl, h⟩
  | addOfB _ ih => exact ih
  | addOf _ ih => exact ih
  | mul _ _ _ ih _ => obtain ⟨t, r, rfl, h⟩ := ih; exact ⟨t, _, rfl, h⟩
  | mulOfB _ ih => exact ih
  | mulOf _ ih => exact ih
  | «prefix» u _ _ => exact ⟨_, _, rfl, by rintro ⟨⟩; simp [unOp] at u, by rintro ⟨⟩; simp [unOp] at u⟩
  | cast _ _ ih => obtain ⟨t, r, rfl, h⟩ := ih; exact ⟨t, _, rfl, h⟩
  | unaryOfB _ ih => exact ih
  | unaryOf _ ih => exact ih
  | complexIte _ ih => exact ih
  | complexAndOr _ ih => obtain ⟨t, r, rfl, h1, h2⟩ := ih; exact ⟨t, _, rfl, h1⟩
  | complexCmp _ ih => obtain ⟨t, r, rfl, h1, h2⟩ := ih; exact ⟨t, _, rfl, h1⟩
  | complexAdd _ ih => obtain ⟨t, r, rfl, h1, h2⟩ := ih; exact ⟨t, _, rfl, h1⟩
  | complexMul _ ih => obtain ⟨t, r, rfl, h1, h2⟩ := ih; exact ⟨t, _, rfl, h1⟩
  | complexUnary _ ih => obtain ⟨t, r, rfl, h1, h2⟩ := ih; exact ⟨t, _, rfl, h1⟩
  | paren => exact ⟨_, _, rfl, by simp, by simp⟩
  | wild => exact ⟨_, _, rfl, by simp, by simp⟩
  | lit => exact ⟨_, _, rfl, by simp, by simp⟩
  | var => exact ⟨_, _, rfl, by simp, by simp⟩
  | call => exact ⟨_, _, rfl, by simp, by simp⟩
  | new => exact ⟨_, _, rfl, by simp, by simp⟩
  | noArg => trivial
  | lastArg => trivial
  | arg => trivial

/-- The deterministic reader follows a derivation; before a loop, it goes on with the loop. -/
def Follows : NT → List Tok → Out → Prop
  | .unit, ts, o => ∀ rest, P .unit (ts ++ rest) o false rest
  | .unaryB, ts, o => ∀ rest, P .unary (ts ++ rest) o true rest
  | .unary, ts, o => ∃ b, ∀ rest, Stops 6 rest → P .unary (ts ++ rest) o b rest
  | .mulB, ts, o => ∃ e, o = .one e ∧ ∀ rest, Stops 6 rest → ∀ o' b' r', P (.mulL e true) rest o' b' r' →
      P .mul (ts ++ rest) o' b' r'
  | .mul, ts, o => ∃ e b, o = .one e ∧ ∀ rest, Stops 6 rest → ∀ o' b' r', P (.mulL e b) rest o' b' r' →
      P .mul (ts ++ rest) o' b' r'
  | .addB, ts, o => ∃ e, o = .one e ∧ ∀ rest, Stops 5 rest → ∀ o' b' r', P (.addL e true) rest o' b' r' →
      P .add (ts ++ rest) o' b' r'
  | .add, ts, o => ∃ e b, o = .one e ∧ ∀ rest, Stops 5 rest → ∀ o' b' r', P (.addL e b) rest o' b' r' →
      P .add (ts ++ rest) o' b' r'
  | .cmpB, ts, o => ∃ e, o = .one e ∧ ∀ rest, Stops 4 rest → P .cmp (ts ++ rest) o true rest
  | .cmp, ts, o => ∃ e b, o = .one e ∧ ∀ rest, Stops 3 rest → P .cmp (ts ++ rest) o b rest
  | .andOrB, ts, o => ∃ e, o = .one e ∧ ∀ rest, Stops 3 rest → ∀ o' b' r', P (.andOrL e true) rest o' b' r' →
      P .andOr (ts ++ rest) o' b' r'
  | .andOr, ts, o => ∃ e b, o = .one e ∧ ∀ rest, Stops 3 rest → ∀ o' b' r', P (.andOrL e b) rest o' b' r' →
      P .andOr (ts ++ rest) o' b' r'
  | .iteB, ts, o => ∀ rest, Stops 1 rest → P .ite (ts ++ rest) o true rest
  | .ite, ts, o => ∃ b, ∀ rest, Stops 1 rest → P .ite (ts ++ rest) o b rest
  | .complex, ts, o => ∀ rest, Stops 1 rest → P .ite (ts ++ rest) o true rest
  | .args, ts, o => ∀ rest, P .args (ts ++ .sym .rpar :: rest) o false (.sym .rpar :: rest)

/-- Only argument lists produce lists. -/
theorem D.one {n : NT} {ts : List Tok} {o : Out} (h : D n ts o) : n ≠ .args → ∃ e, o = .one e := by
  induction h <;> simp_all

theorem head_ne {n : NT} {ts : List Tok} {o : Out} (h : D n ts o) (hn : n ≠ .args) (rest : List Tok) :
    (ts ++ rest).head? ≠ some (.sym .rpar) := by
  have := h.begins
  cases n <;> simp only [Begins] at this <;>
    first
    | (obtain ⟨t, r, rfl, h1⟩ := this; simpa using h1)
    | (obtain ⟨t, r, rfl, h1, _⟩ := this; simpa using h1)
    | exact absurd rfl hn

theorem head_ne_if {n : NT} {ts : List Tok} {o : Out} (h : D n ts o)
    (hn : n ≠ .args ∧ n ≠ .ite ∧ n ≠ .iteB ∧ n ≠ .complex) (rest : List Tok) :
    (ts ++ rest).head? ≠ some (.sym .if_) := by
  have := h.begins
  cases n <;> simp only [Begins] at this <;>
    first
    | (obtain ⟨t, r, rfl, _, h1⟩ := this; simpa using h1)
    | simp at hn

/-! From a loop that stops to the enclosing kinds. -/

theorem up_andOr {ts r : List Tok} {e : Ast} {b : Bool} (h : P .cmp ts (.one e) b r) (s : Stops 2 r) :
    P .andOr ts (.one e) b r := .andOr h (.andOrStop s)

theorem up_ite {ts r : List Tok} {e : Ast} {b : Bool} (hd : ts.head? ≠ some (.sym .if_))
    (h : P .andOr ts (.one e) b r) (s : Stops 1 r) : P .ite ts (.one e) b r := .iteOnly hd h s

theorem D.follows {n : NT} {ts : List Tok} {o : Out} (h : D n ts o) : Follows n ts o := by
  induction h with
  | ifThenElse hc ht he ihc iht ihe =>
    intro rest s
    obtain ⟨_, b, ho, fc⟩ := ihc; cases ho
    obtain ⟨b1, ft⟩ := iht
    obtain ⟨b2, fe⟩ := ihe
    simp only [List.append_assoc, List.cons_append]
    refine .ifThenElse (fc _ (stops_cons (by simp [tight])) _ _ _ (.andOrStop (stops_cons (by simp [tight]))))
      (ft _ (stops_cons (by simp [tight]))) (fe _ s)
  | question hc ht he ihc iht ihe =>
    intro rest s
    have hd := head_ne_if hc (by simp)
    obtain ⟨_, b, ho, fc⟩ := ihc; cases ho
    obtain ⟨b1, ft⟩ := iht
    obtain ⟨b2, fe⟩ := ihe
    simp only [List.append_assoc, List.cons_append]
    exact .question (hd _) (fc _ (stops_cons (by simp [tight])) _ _ _ (.andOrStop (stops_cons (by simp [tight]))))
      (ft _ (stops_cons (by simp [tight]))) (fe _ s)
  | iteOfB _ ih => exact ⟨true, ih⟩
  | iteOf h ih =>
    have hd := head_ne_if h (by simp)
    obtain ⟨e, b, rfl, f⟩ := ih
    exact ⟨b, fun rest s => .iteOnly (hd _) (f _ (s.mono (by omega)) _ _ _ (.andOrStop (s.mono (by omega)))) s⟩
  | andOr _ u _ ih1 ih2 =>
    obtain ⟨_, b, ho, f⟩ := ih1; cases ho
    obtain ⟨_, b', ho, g⟩ := ih2; cases ho
    refine ⟨_, rfl, fun rest s o' b' r' hl => ?_⟩
    simp only [List.append_assoc, List.cons_append]
    exact f _ (stops_cons (by simp [tight_andOr u])) _ _ _ (.andOrStep u (g _ s) hl)
  | andOrOfB _ ih => obtain ⟨e, rfl, f⟩ := ih; exact ⟨e, true, rfl, f⟩
  | andOrOf _ ih =>
    obtain ⟨e, b, rfl, f⟩ := ih
    exact ⟨e, b, rfl, fun rest s o' b' r' hl => .andOr (f _ s) hl⟩
  | cmp _ u _ ih1 ih2 =>
    obtain ⟨_, b, ho, f⟩ := ih1; cases ho
    obtain ⟨_, b', ho, g⟩ := ih2; cases ho
    refine ⟨_, rfl, fun rest s => ?_⟩
    simp only [List.append_assoc, List.cons_append]
    exact .cmp (f _ (stops_cons (by simp [tight_cmp u])) _ _ _ (.addStop (stops_cons (by simp [tight_cmp u])))) u
      (g _ (s.mono (by omega)) _ _ _ (.addStop s))
  | cmpOfB _ ih => obtain ⟨e, rfl, f⟩ := ih; exact ⟨e, true, rfl, fun rest s => f _ (s.mono (by omega))⟩
  | cmpOf _ ih =>
    obtain ⟨e, b, rfl, f⟩ := ih
    exact ⟨e, b, rfl, fun rest s => .cmpOnly (f _ (s.mono (by omega)) _ _ _ (.addStop (s.mono (by omega)))) s⟩
  | add _ u _ ih1 ih2 =>
    obtain ⟨_, b, ho, f⟩ := ih1; cases ho
    obtain ⟨_, b', ho, g⟩ := ih2; cases ho
    refine ⟨_, rfl, fun rest s o' b' r' hl => ?_⟩
    simp only [List.append_assoc, List.cons_append]
    exact f _ (stops_cons (by simp [tight_add u])) _ _ _
      (.addStep u (g _ (s.mono (by omega)) _ _ _ (.mulStop s)) hl)
  | addOfB _ ih => obtain ⟨e, rfl, f⟩ := ih; exact ⟨e, true, rfl, f⟩
  | addOf _ ih =>
    obtain ⟨e, b, rfl, f⟩ := ih
    exact ⟨e, b, rfl, fun rest s o' b' r' hl => .add (f _ (s.mono (by omega)) _ _ _ (.mulStop s)) hl⟩
  | mul _ u _ ih1 ih2 =>
    obtain ⟨_, b, ho, f⟩ := ih1; cases ho
    obtain ⟨b', g⟩ := ih2
    refine ⟨_, rfl, fun rest s o' b' r' hl => ?_⟩
    simp only [List.append_assoc, List.cons_append]
    exact f _ (stops_cons (by simp [tight_mul u])) _ _ _ (.mulStep u (g _ s) hl)
  | mulOfB _ ih => obtain ⟨e, rfl, f⟩ := ih; exact ⟨e, true, rfl, f⟩
  | mulOf h ih =>
    obtain ⟨e, rfl⟩ := h.one (by simp)
    obtain ⟨b, f⟩ := ih
    exact ⟨e, b, rfl, fun rest s o' b' r' hl => .mul (f _ s) hl⟩
  | «prefix» u _ ih => intro rest; exact .prefix u (ih rest)
  | cast _ u ih =>
    intro rest
    simp only [List.append_assoc, List.cons_append, List.nil_append]
    exact .cast (ih _) u
  | unaryOfB _ ih => exact ⟨true, fun rest _ => ih rest⟩
  | unaryOf _ ih => exact ⟨false, fun rest s => .unitOnly (ih rest) s⟩
  | complexIte _ ih => exact ih
  | complexAndOr h ih =>
    have hd := head_ne_if h (by simp)
    obtain ⟨e, rfl, f⟩ := ih
    exact fun rest s => up_ite (hd _) (f _ (s.mono (by omega)) _ _ _ (.andOrStop (s.mono (by omega)))) s
  | complexCmp h ih =>
    have hd := head_ne_if h (by simp)
    obtain ⟨e, rfl, f⟩ := ih
    exact fun rest s => up_ite (hd _) (up_andOr (f _ (s.mono (by omega))) (s.mono (by omega))) s
  | complexAdd h ih =>
    have hd := head_ne_if h (by simp)
    obtain ⟨e, rfl, f⟩ := ih
    exact fun rest s => up_ite (hd _) (up_andOr (.cmpOnly (f _ (s.mono (by omega)) _ _ _
      (.addStop (s.mono (by omega)))) (s.mono (by omega))) (s.mono (by omega))) s
  | complexMul h ih =>
    have hd := head_ne_if h (by simp)
    obtain ⟨e, rfl, f⟩ := ih
    exact fun rest s => up_ite (hd _) (up_andOr (.cmpOnly (.add (f _ (s.mono (by omega)) _ _ _
      (.mulStop (s.mono (by omega)))) (.addStop (s.mono (by omega)))) (s.mono (by omega))) (s.mono (by omega))) s
  | complexUnary h ih =>
    have hd := head_ne_if h (by simp)
    obtain ⟨e, rfl⟩ := h.one (by simp)
    exact fun rest s => up_ite (hd _) (up_andOr (.cmpOnly (.add (.mul (ih rest)
      (.mulStop (s.mono (by omega)))) (.addStop (s.mono (by omega)))) (s.mono (by omega))) (s.mono (by omega))) s
  | paren _ ih =>
    intro rest
    simp only [List.append_assoc, List.cons_append, List.nil_append]
    exact .paren (ih _ (stops_cons (by simp [tight])))
  | wild => intro rest; exact .wild
  | lit => intro rest; exact .lit
  | var => intro rest; exact .var
  | call _ ih =>
    intro rest
    simp only [List.append_assoc, List.cons_append, List.nil_append]
    exact .call (ih _)
  | new _ ih =>
    intro rest
    simp only [List.append_assoc, List.cons_append, List.nil_append]
    exact .new (ih _)
  | noArg => intro rest; exact .noArg
  | lastArg h ih =>
    obtain ⟨b, f⟩ := ih
    intro rest
    exact .lastArg (head_ne h (by simp) _) (f _ (stops_cons (by simp [tight])))
  | arg h _ ih1 ih2 =>
    obtain ⟨b, f⟩ := ih1
    intro rest
    simp only [List.append_assoc, List.cons_append]
    exact .arg (head_ne h (by simp) _) (f _ (stops_cons (by simp [tight]))) (ih2 _)

/-- A whole expression is followed by the deterministic reader. -/
theorem Reads.follows {ts : List Tok} {e : Ast} (h : Reads ts e) : ∃ b, P .ite ts (.one e) b [] := by
  obtain ⟨b, f⟩ := D.follows h
  have := f [] (stops_nil 1)
  rw [List.append_nil] at this
  exact ⟨b, this⟩

end Scallop.Syn
