import Verif.Proof.Grammar
import Verif.Spec.Grammar

/-!
# Chains of binary operators; written expressions
-/

namespace Scallop.Syn

/-- The nonterminal for chains of operators of at least some strength. -/
def ntOf : Nat → NT
  | 0 => .andOr
  | 1 => .cmp
  | 2 => .add
  | 3 => .mul
  | _ => .unary

theorem ntOf_up {j k : Nat} {ts : List Tok} {o : Out} (h : D (ntOf j) ts o) (hk : k ≤ j) : D (ntOf k) ts o := by
  have step : ∀ k, D (ntOf (k + 1)) ts o → D (ntOf k) ts o := by
    intro k h
    match k with
    | 0 => exact .andOrOf h
    | 1 => exact .cmpOf h
    | 2 => exact .addOf h
    | 3 => exact .mulOf h
    | _ + 4 => exact h
  induction j with
  | zero => have : k = 0 := by omega
            subst this; exact h
  | succ j ih =>
    by_cases hj : k = j + 1
    · subst hj; exact h
    · exact ih (step _ h) (by omega)

theorem binOp_bin {o : BinOp} {x y : List Tok} {a b : Ast}
    (hl : D (ntOf (if o.level = 1 then 2 else o.level)) x (.one a)) (hr : D (ntOf (o.level + 1)) y (.one b)) :
    D (ntOf o.level) (x ++ .sym o.sym :: y) (.one (.bin o a b)) := by
  cases o <;> simp only [BinOp.level, BinOp.sym, ntOf] at hl hr ⊢
  case and => exact .andOrOfB (.andOr hl rfl hr)
  case or => exact .andOrOfB (.andOr hl rfl hr)
  case xor => exact .andOrOfB (.andOr hl rfl hr)
  case eq => exact .cmpOfB (.cmp hl rfl hr)
  case neq => exact .cmpOfB (.cmp hl rfl hr)
  case lt => exact .cmpOfB (.cmp hl rfl hr)
  case leq => exact .cmpOfB (.cmp hl rfl hr)
  case gt => exact .cmpOfB (.cmp hl rfl hr)
  case geq => exact .cmpOfB (.cmp hl rfl hr)
  case add => exact .addOfB (.add hl rfl hr)
  case sub => exact .addOfB (.add hl rfl hr)
  case mul => exact .mulOfB (.mul hl rfl hr)
  case div => exact .mulOfB (.mul hl rfl hr)
  case mod => exact .mulOfB (.mul hl rfl hr)

theorem opsTokens_append (l r : List (BinOp × Operand)) : opsTokens (l ++ r) = opsTokens l ++ opsTokens r := by
  induction l with
  | nil => rfl
  | cons p l ih => obtain ⟨o, y⟩ := p; simp [opsTokens, ih]

theorem level_le (o : BinOp) : o.level ≤ 3 := by cases o <;> simp [BinOp.level]

/-- Grouped chains are derived. -/
theorem Groups.derived {x : Operand} {l : List (BinOp × Operand)} {a : Ast} (h : Groups x l a) :
    AllOperands x l → ∀ k, (∀ p ∈ l, k ≤ p.1.level) → k ≤ 4 → D (ntOf k) (chainTokens x l) (.one a) := by
  induction h with
  | one x =>
    intro hx k _ hk
    simp only [chainTokens, opsTokens, List.append_nil]
    exact ntOf_up (j := 4) hx.1 hk
  | @node x y l r o a b _ _ hl hr ih1 ih2 =>
    intro hx k hk _
    have hy : AllOperands y r := ⟨hx.2 (o, y) (by simp), fun p hp => hx.2 p (by simp [hp])⟩
    have hxl : AllOperands x l := ⟨hx.1, fun p hp => hx.2 p (by simp [hp])⟩
    have ho : k ≤ o.level := hk (o, y) (by simp)
    have h3 := level_le o
    refine ntOf_up (j := o.level) ?_ ho
    have e : chainTokens x (l ++ (o, y) :: r) = chainTokens x l ++ .sym o.sym :: chainTokens y r := by
      simp [chainTokens, opsTokens_append, opsTokens]
    rw [e]
    refine binOp_bin (ih1 hxl _ ?_ ?_) (ih2 hy _ (fun p hp => hr p hp) (by omega))
    · intro p hp
      have := hl p hp
      unfold MayBeLeftOf at this
      split <;> omega
    · split <;> omega

theorem tight_sym (o : BinOp) : tight (.sym o.sym) = o.level + 2 := by cases o <;> rfl

theorem stops_ops {k : Nat} (hk : 6 ≤ k) (l : List (BinOp × Operand)) : Stops k (opsTokens l) := by
  cases l with
  | nil => exact stops_nil k
  | cons p l =>
    obtain ⟨o, y⟩ := p
    exact stops_cons (by have := level_le o; rw [tight_sym]; omega)

/-- Reading an operand. -/
theorem read_operand {y : Operand} (hy : IsOperand y) {l : List (BinOp × Operand)} {o : Out} {b : Bool}
    {r : List Tok} (h : P .unary (y.1 ++ opsTokens l) o b r) : o = .one y.2 ∧ r = opsTokens l := by
  obtain ⟨b', f⟩ := D.follows hy
  obtain ⟨e1, _, e3⟩ := P.det h (f _ (stops_ops (Nat.le_refl 6) l))
  exact ⟨e1, e3⟩

theorem mulOp_sym {o o' : BinOp} (h : mulOp o.sym = some o') : o = o' ∧ o.level = 3 := by
  cases o <;> simp_all [mulOp, BinOp.sym, BinOp.level]

theorem addOp_sym {o o' : BinOp} (h : addOp o.sym = some o') : o = o' ∧ o.level = 2 := by
  cases o <;> simp_all [addOp, BinOp.sym, BinOp.level]

theorem cmpOp_sym {o o' : BinOp} (h : cmpOp o.sym = some o') : o = o' ∧ o.level = 1 := by
  cases o <;> simp_all [cmpOp, BinOp.sym, BinOp.level]

theorem andOrOp_sym {o o' : BinOp} (h : andOrOp o.sym = some o') : o = o' ∧ o.level = 0 := by
  cases o <;> simp_all [andOrOp, BinOp.sym, BinOp.level]

/-- What reading a loop over operators of strength `k` or more does to a chain: it groups a part of it. -/
def Extends (k : Nat) (acc : Ast) (l : List (BinOp × Operand)) (o : Out) (r : List Tok) : Prop :=
  ∃ l1 l2 e, l = l1 ++ l2 ∧ r = opsTokens l2 ∧ o = .one e ∧ (∀ p ∈ l1, k ≤ p.1.level) ∧
    ∀ x l0, Groups x l0 acc → (∀ p ∈ l0, k ≤ p.1.level) → Groups x (l0 ++ l1) e

/-- What reading a chain does. -/
def Prefix (k : Nat) (x : Operand) (l : List (BinOp × Operand)) (o : Out) (r : List Tok) : Prop :=
  ∃ l1 l2 e, l = l1 ++ l2 ∧ r = opsTokens l2 ∧ o = .one e ∧ (∀ p ∈ l1, k ≤ p.1.level) ∧ Groups x l1 e

theorem mulL_extends {acc : Ast} {b : Bool} {l : List (BinOp × Operand)} (hl : ∀ p ∈ l, IsOperand p.2) {o : Out}
    {b' : Bool} {r : List Tok} (h : P (.mulL acc b) (opsTokens l) o b' r) : Extends 3 acc l o r := by
  induction l generalizing acc b with
  | nil =>
    generalize ht : opsTokens [] = ts at h
    cases h with
    | mulStop _ => exact ⟨[], [], acc, rfl, ht.symm, rfl, by simp, fun x l0 g _ => by simpa using g⟩
    | mulStep u _ _ => simp [opsTokens] at ht
  | cons p l ih =>
    obtain ⟨op, y⟩ := p
    generalize ht : opsTokens ((op, y) :: l) = ts at h
    cases h with
    | mulStop _ => exact ⟨[], (op, y) :: l, acc, rfl, ht.symm, rfl, by simp, fun x l0 g _ => by simpa using g⟩
    | mulStep u h1 h2 =>
      simp only [opsTokens, List.cons_append, List.cons.injEq, Tok.sym.injEq] at ht
      obtain ⟨rfl, rfl⟩ := ht
      obtain ⟨e1, e2⟩ := read_operand (hl (op, y) (by simp)) h1
      cases e1; subst e2
      obtain ⟨rfl, hlev⟩ := mulOp_sym u
      obtain ⟨l1, l2, e, rfl, rfl, rfl, h3, hg⟩ := ih (fun p hp => hl p (by simp [hp])) h2
      refine ⟨(op, y) :: l1, l2, e, rfl, rfl, rfl, ?_, ?_⟩
      · intro p hp
        rcases List.mem_cons.1 hp with rfl | hp
        · exact (Nat.le_of_eq hlev.symm)
        · exact h3 p hp
      · intro x l0 g0 h0
        have := hg x (l0 ++ [(op, y)]) (.node g0 (.one y) (fun p hp => ?_) (by simp)) (fun p hp => ?_)
        · simpa using this
        · have a1 := h0 p hp
          have a2 := level_le p.1
          exact Or.inr ⟨by omega, by omega⟩
        · rcases List.mem_append.1 hp with hp | hp
          · exact h0 p hp
          · simp at hp; subst hp; exact (Nat.le_of_eq hlev.symm)

theorem mul_prefix {x : Operand} {l : List (BinOp × Operand)} (hx : AllOperands x l) {o : Out} {b : Bool}
    {r : List Tok} (h : P .mul (chainTokens x l) o b r) : Prefix 3 x l o r := by
  cases h with
  | mul h1 h2 =>
    obtain ⟨e1, e2⟩ := read_operand hx.1 h1
    cases e1; subst e2
    obtain ⟨l1, l2, e, h4, h5, h6, h3, hg⟩ := mulL_extends hx.2 h2
    exact ⟨l1, l2, e, h4, h5, h6, h3, by simpa using hg x [] (.one x) (by simp)⟩

theorem addL_extends {n : Nat} {acc : Ast} {b : Bool} {l : List (BinOp × Operand)} (hn : l.length ≤ n)
    (hl : ∀ p ∈ l, IsOperand p.2) {o : Out}
    {b' : Bool} {r : List Tok} (h : P (.addL acc b) (opsTokens l) o b' r) : Extends 2 acc l o r := by
  induction n generalizing acc b l with
  | zero =>
    have : l = [] := List.length_eq_zero_iff.1 (by omega)
    subst this
    generalize ht : opsTokens [] = ts at h
    cases h with
    | addStop _ => exact ⟨[], [], acc, rfl, ht.symm, rfl, by simp, fun x l0 g _ => by simpa using g⟩
    | addStep u _ _ => simp [opsTokens] at ht
  | succ n ih =>
    generalize ht : opsTokens l = ts at h
    cases h with
    | addStop _ => exact ⟨[], l, acc, rfl, ht.symm, rfl, by simp, fun x l0 g _ => by simpa using g⟩
    | addStep u h1 h2 =>
      cases l with
      | nil => simp [opsTokens] at ht
      | cons p l =>
      obtain ⟨op, y⟩ := p
      simp only [opsTokens, List.cons_append, List.cons.injEq, Tok.sym.injEq] at ht
      obtain ⟨rfl, rfl⟩ := ht
      obtain ⟨m1, m2, e', rfl, rfl, e1, hm, gm⟩ :=
        mul_prefix (x := y) (l := l) ⟨hl (op, y) (by simp), fun p hp => hl p (by simp [hp])⟩ h1
      cases e1
      obtain ⟨rfl, hlev⟩ := addOp_sym u
      obtain ⟨l1, l2, e, rfl, rfl, rfl, h3, hg⟩ := ih (by simp at hn ⊢; omega)
        (fun p hp => hl p (by simp [hp])) h2
      refine ⟨(op, y) :: m1 ++ l1, l2, e, by simp, rfl, rfl, ?_, ?_⟩
      · intro p hp
        rcases List.mem_append.1 hp with hp | hp
        · rcases List.mem_cons.1 hp with rfl | hp
          · exact (Nat.le_of_eq hlev.symm)
          · have := hm p hp; omega
        · exact h3 p hp
      · intro x l0 g0 h0
        have := hg x (l0 ++ (op, y) :: m1) (.node g0 gm (fun p hp => ?_) (fun p hp => ?_)) (fun p hp => ?_)
        · simpa using this
        · have a1 := h0 p hp
          unfold MayBeLeftOf
          omega
        · have := hm p hp; omega
        · rcases List.mem_append.1 hp with hp | hp
          · exact h0 p hp
          · rcases List.mem_cons.1 hp with rfl | hp
            · exact (Nat.le_of_eq hlev.symm)
            · have := hm p hp; omega

theorem add_prefix {x : Operand} {l : List (BinOp × Operand)} (hx : AllOperands x l) {o : Out} {b : Bool}
    {r : List Tok} (h : P .add (chainTokens x l) o b r) : Prefix 2 x l o r := by
  cases h with
  | add h1 h2 =>
    obtain ⟨m1, m2, e', rfl, rfl, e1, hm, gm⟩ := mul_prefix hx h1
    cases e1
    obtain ⟨l1, l2, e, rfl, h5, h6, h3, hg⟩ := addL_extends (Nat.le_refl _) (fun p hp => hx.2 p (by simp [hp])) h2
    refine ⟨m1 ++ l1, l2, e, by simp, h5, h6, fun p hp => ?_, hg x m1 gm (fun p hp => ?_)⟩
    · rcases List.mem_append.1 hp with hp | hp
      · have := hm p hp; omega
      · exact h3 p hp
    · have := hm p hp; omega

theorem cmp_prefix {x : Operand} {l : List (BinOp × Operand)} (hx : AllOperands x l) {o : Out} {b : Bool}
    {r : List Tok} (h : P .cmp (chainTokens x l) o b r) : Prefix 1 x l o r := by
  cases h with
  | cmpOnly h1 _ =>
    obtain ⟨m1, m2, e, h4, h5, h6, h3, hg⟩ := add_prefix hx h1
    exact ⟨m1, m2, e, h4, h5, h6, fun p hp => by have := h3 p hp; omega, hg⟩
  | cmp h1 u h2 =>
    obtain ⟨m1, m2, e', rfl, ht, e1, hm, gm⟩ := add_prefix hx h1
    cases e1
    cases m2 with
    | nil => simp [opsTokens] at ht
    | cons p m2 =>
      obtain ⟨op, y⟩ := p
      simp only [opsTokens, List.cons_append, List.cons.injEq, Tok.sym.injEq] at ht
      obtain ⟨rfl, rfl⟩ := ht
      obtain ⟨rfl, hlev⟩ := cmpOp_sym u
      obtain ⟨l1, l2, e, rfl, h5, h6, h3, hg⟩ := add_prefix (x := y) (l := m2)
        ⟨hx.2 (op, y) (by simp), fun p hp => hx.2 p (by simp [hp])⟩ h2
      cases h6
      refine ⟨m1 ++ (op, y) :: l1, l2, _, by simp, h5, rfl, fun p hp => ?_, .node gm hg (fun p hp => ?_) (fun p hp => ?_)⟩
      · rcases List.mem_append.1 hp with hp | hp
        · have := hm p hp; omega
        · rcases List.mem_cons.1 hp with rfl | hp
          · exact (Nat.le_of_eq hlev.symm)
          · have := h3 p hp; omega
      · have := hm p hp
        exact Or.inl (by omega)
      · have := h3 p hp; omega

theorem andOrL_extends {n : Nat} {acc : Ast} {b : Bool} {l : List (BinOp × Operand)} (hn : l.length ≤ n)
    (hl : ∀ p ∈ l, IsOperand p.2) {o : Out}
    {b' : Bool} {r : List Tok} (h : P (.andOrL acc b) (opsTokens l) o b' r) : Extends 0 acc l o r := by
  induction n generalizing acc b l with
  | zero =>
    have : l = [] := List.length_eq_zero_iff.1 (by omega)
    subst this
    generalize ht : opsTokens [] = ts at h
    cases h with
    | andOrStop _ => exact ⟨[], [], acc, rfl, ht.symm, rfl, by simp, fun x l0 g _ => by simpa using g⟩
    | andOrStep u _ _ => simp [opsTokens] at ht
  | succ n ih =>
    generalize ht : opsTokens l = ts at h
    cases h with
    | andOrStop _ => exact ⟨[], l, acc, rfl, ht.symm, rfl, by simp, fun x l0 g _ => by simpa using g⟩
    | andOrStep u h1 h2 =>
      cases l with
      | nil => simp [opsTokens] at ht
      | cons p l =>
      obtain ⟨op, y⟩ := p
      simp only [opsTokens, List.cons_append, List.cons.injEq, Tok.sym.injEq] at ht
      obtain ⟨rfl, rfl⟩ := ht
      obtain ⟨m1, m2, e', rfl, rfl, e1, hm, gm⟩ :=
        cmp_prefix (x := y) (l := l) ⟨hl (op, y) (by simp), fun p hp => hl p (by simp [hp])⟩ h1
      cases e1
      obtain ⟨rfl, hlev⟩ := andOrOp_sym u
      obtain ⟨l1, l2, e, rfl, rfl, rfl, h3, hg⟩ := ih (by simp at hn ⊢; omega)
        (fun p hp => hl p (by simp [hp])) h2
      refine ⟨(op, y) :: m1 ++ l1, l2, e, by simp, rfl, rfl, fun p _ => Nat.zero_le _, ?_⟩
      intro x l0 g0 h0
      have := hg x (l0 ++ (op, y) :: m1) (.node g0 gm (fun p hp => ?_) (fun p hp => ?_)) (fun p hp => Nat.zero_le _)
      · simpa using this
      · unfold MayBeLeftOf
        omega
      · have := hm p hp; omega

theorem andOr_prefix {x : Operand} {l : List (BinOp × Operand)} (hx : AllOperands x l) {o : Out} {b : Bool}
    {r : List Tok} (h : P .andOr (chainTokens x l) o b r) : Prefix 0 x l o r := by
  cases h with
  | andOr h1 h2 =>
    obtain ⟨m1, m2, e', rfl, rfl, e1, hm, gm⟩ := cmp_prefix hx h1
    cases e1
    obtain ⟨l1, l2, e, rfl, h5, h6, h3, hg⟩ := andOrL_extends (Nat.le_refl _) (fun p hp => hx.2 p (by simp [hp])) h2
    exact ⟨m1 ++ l1, l2, e, by simp, h5, h6, fun p _ => Nat.zero_le _, hg x m1 gm (fun p _ => Nat.zero_le _)⟩

/-- A chain that is read is grouped. -/
theorem Reads.groups {x : Operand} {l : List (BinOp × Operand)} (hx : AllOperands x l) {e : Ast}
    (h : Reads (chainTokens x l) e) : Groups x l e := by
  obtain ⟨b, h⟩ := h.follows
  generalize ht : chainTokens x l = ts at h
  have hd := head_ne_if hx.1 (by simp) (opsTokens l)
  cases h with
  | ifThenElse _ _ _ =>
    exact absurd (show (chainTokens x l).head? = _ by rw [ht]; rfl) hd
  | question _ h1 _ _ =>
    subst ht
    obtain ⟨l1, l2, _, _, h5, _⟩ := andOr_prefix hx h1
    cases l2 with
    | nil => simp [opsTokens] at h5
    | cons p l2 => obtain ⟨o, y⟩ := p; cases o <;> simp [opsTokens, BinOp.sym] at h5
  | iteOnly _ h1 _ =>
    subst ht
    obtain ⟨l1, l2, e', rfl, h5, h6, _, hg⟩ := andOr_prefix hx h1
    cases h6
    cases l2 with
    | nil => simpa using hg
    | cons p l2 => obtain ⟨o, y⟩ := p; simp [opsTokens] at h5

/-! ### Which chains can be read -/

theorem oneComparison_tight {b : Bool} {l : List (BinOp × Operand)} (h : ∀ p ∈ l, 2 ≤ p.1.level) :
    OneComparison b l := by
  induction l with
  | nil => trivial
  | cons p l ih =>
    obtain ⟨o, y⟩ := p
    have := h (o, y) (by simp)
    simp only at this
    rw [OneComparison, if_neg (by omega), if_neg (by omega)]
    exact ih fun p hp => h p (by simp [hp])

theorem oneComparison_skip {b : Bool} {l r : List (BinOp × Operand)} (h : ∀ p ∈ l, 2 ≤ p.1.level) :
    OneComparison b (l ++ r) ↔ OneComparison b r := by
  induction l with
  | nil => rfl
  | cons p l ih =>
    obtain ⟨o, y⟩ := p
    have := h (o, y) (by simp)
    simp only at this
    rw [List.cons_append, OneComparison, if_neg (by omega), if_neg (by omega)]
    exact ih fun p hp => h p (by simp [hp])

/-- A logical operator starts anew. -/
theorem oneComparison_logical {b : Bool} {l r : List (BinOp × Operand)} {o : BinOp} {y : Operand}
    (ho : o.level = 0) :
    OneComparison b (l ++ (o, y) :: r) ↔ OneComparison b l ∧ OneComparison false r := by
  induction l generalizing b with
  | nil => simp [OneComparison, ho]
  | cons p l ih =>
    obtain ⟨o', y'⟩ := p
    rw [List.cons_append, OneComparison, OneComparison]
    split
    · exact ih
    · split
      · rw [ih, and_assoc]
      · exact ih

theorem Groups.oneComparison {x : Operand} {l : List (BinOp × Operand)} {a : Ast} (h : Groups x l a) :
    OneComparison false l := by
  induction h with
  | one => trivial
  | @node x y l r o a b _ _ hl hr ih1 ih2 =>
    by_cases h0 : o.level = 0
    · exact (oneComparison_logical h0).2 ⟨ih1, ih2⟩
    · have hr' : ∀ p ∈ r, 2 ≤ p.1.level := fun p hp => by have := hr p hp; omega
      have hl' : ∀ p ∈ l, 2 ≤ p.1.level := fun p hp => by
        have := hl p hp
        unfold MayBeLeftOf at this
        omega
      rw [oneComparison_skip hl', OneComparison, if_neg h0]
      split
      · exact ⟨rfl, oneComparison_tight hr'⟩
      · exact oneComparison_tight hr'

/-- The last of the operators that bind least. -/
theorem loosest (l : List (BinOp × Operand)) (hl : l ≠ []) :
    ∃ a o y b, l = a ++ (o, y) :: b ∧ (∀ p ∈ a, o.level ≤ p.1.level) ∧ ∀ p ∈ b, o.level < p.1.level := by
  induction l with
  | nil => exact absurd rfl hl
  | cons p l ih =>
    obtain ⟨o, y⟩ := p
    by_cases hn : l = []
    · subst hn; exact ⟨[], o, y, [], rfl, by simp, by simp⟩
    · obtain ⟨a, o', y', b, rfl, h1, h2⟩ := ih hn
      by_cases hlt : o.level < o'.level
      · refine ⟨[], o, y, _, rfl, by simp, fun p hp => ?_⟩
        rcases List.mem_append.1 hp with hp | hp
        · have := h1 p hp; omega
        · rcases List.mem_cons.1 hp with rfl | hp
          · exact hlt
          · have := h2 p hp; omega
      · refine ⟨(o, y) :: a, o', y', b, rfl, fun p hp => ?_, h2⟩
        rcases List.mem_cons.1 hp with rfl | hp
        · simp only; omega
        · exact h1 p hp

/-- Before a comparison, without logical operators, there is no comparison. -/
theorem oneComparison_before {b : Bool} {l r : List (BinOp × Operand)} {o : BinOp} {y : Operand}
    (ho : o.level = 1) (hl : ∀ p ∈ l, 1 ≤ p.1.level) (h : OneComparison b (l ++ (o, y) :: r)) :
    b = false ∧ ∀ p ∈ l, 2 ≤ p.1.level := by
  induction l generalizing b with
  | nil =>
    rw [List.nil_append, OneComparison, if_neg (by omega), if_pos ho] at h
    exact ⟨h.1, by simp⟩
  | cons p l ih =>
    obtain ⟨o', y'⟩ := p
    have h1 := hl (o', y') (by simp)
    simp only at h1
    rw [List.cons_append, OneComparison, if_neg (by omega)] at h
    split at h
    · have := (ih (fun p hp => hl p (by simp [hp])) h.2).1
      cases this
    · obtain ⟨hb, h2⟩ := ih (fun p hp => hl p (by simp [hp])) h
      refine ⟨hb, fun p hp => ?_⟩
      rcases List.mem_cons.1 hp with rfl | hp
      · simp only; omega
      · exact h2 p hp

theorem OneComparison.groups {n : Nat} {x : Operand} {l : List (BinOp × Operand)} (hn : l.length ≤ n)
    (h : OneComparison false l) : ∃ a, Groups x l a := by
  induction n generalizing x l with
  | zero =>
    have : l = [] := List.length_eq_zero_iff.1 (by omega)
    subst this
    exact ⟨_, .one x⟩
  | succ n ih =>
    by_cases he : l = []
    · subst he; exact ⟨_, .one x⟩
    · obtain ⟨l1, o, y, l2, rfl, h1, h2⟩ := loosest l he
      simp only [List.length_append, List.length_cons] at hn
      by_cases h0 : o.level = 0
      · obtain ⟨ha, hb⟩ := (oneComparison_logical h0).1 h
        obtain ⟨a, ga⟩ := ih (x := x) (by omega) ha
        obtain ⟨b, gb⟩ := ih (x := y) (by omega) hb
        refine ⟨_, .node ga gb (fun p hp => ?_) h2⟩
        unfold MayBeLeftOf
        omega
      · have hr' : ∀ p ∈ l2, 2 ≤ p.1.level := fun p hp => by have := h2 p hp; omega
        have hl' : (∀ p ∈ l1, 2 ≤ p.1.level) ∧ ∀ p ∈ l1, MayBeLeftOf p.1 o := by
          by_cases h1' : o.level = 1
          · have := (oneComparison_before h1' (fun p hp => by have := h1 p hp; omega) h).2
            exact ⟨this, fun p hp => Or.inl (by have := this p hp; omega)⟩
          · refine ⟨fun p hp => by have := h1 p hp; omega, fun p hp => ?_⟩
            have := h1 p hp
            unfold MayBeLeftOf
            omega
        obtain ⟨a, ga⟩ := ih (x := x) (l := l1) (by omega) (oneComparison_tight hl'.1)
        obtain ⟨b, gb⟩ := ih (x := y) (l := l2) (by omega) (oneComparison_tight hr')
        exact ⟨_, .node ga gb hl'.2 h2⟩

/-! ### What cannot be read -/

/-- Reading something that does not begin with `if` begins with reading an operand. -/
theorem P.first {ts : List Tok} {o : Out} {b : Bool} {r : List Tok} (h : P .ite ts o b r)
    (hd : ts.head? ≠ some (.sym .if_)) :
    ∃ e b' r' o'' b'' r'', P .unary ts (.one e) b' r' ∧ P (.mulL e b') r' o'' b'' r'' := by
  have aux : ∀ {o b r}, P .andOr ts o b r → ∃ e b' r' o'' b'' r'', P .unary ts (.one e) b' r' ∧
      P (.mulL e b') r' o'' b'' r'' := by
    intro o b r h
    have aux2 : ∀ {o b r}, P .add ts o b r → ∃ e b' r' o'' b'' r'', P .unary ts (.one e) b' r' ∧
        P (.mulL e b') r' o'' b'' r'' := by
      intro o b r h
      cases h with
      | add h1 _ => cases h1 with | mul h1 h2 => exact ⟨_, _, _, _, _, _, h1, h2⟩
    cases h with
    | andOr h1 _ =>
      cases h1 with
      | cmpOnly h1 _ => exact aux2 h1
      | cmp h1 _ _ => exact aux2 h1
  cases h with
  | ifThenElse _ _ _ => simp at hd
  | question _ h1 _ _ => exact aux h1
  | iteOnly _ h1 _ => exact aux h1

/-- A unit followed by something that is not an operator. -/
theorem unit_P {ts rest : List Tok} {o : Out} (h : D .unit ts o) (s : Stops 1 rest) : P .ite (ts ++ rest) o false rest := by
  obtain ⟨e, rfl⟩ := h.one (by simp)
  refine .iteOnly (head_ne_if h (by simp) rest) (up_andOr (.cmpOnly (.add (.mul (.unitOnly (h.follows rest) ?_) (.mulStop ?_))
    (.addStop ?_)) ?_) ?_) s <;> exact s.mono (by omega)

theorem not_cast {r : List Tok} {e : Ast} {b b' : Bool} {o : Out} {r' : List Tok} :
    ¬ P (.mulL e b) (.sym .as_ :: r) o b' r' := by
  intro h
  cases h with
  | mulStop s => exact absurd (s _ _ rfl) (by simp [tight])
  | mulStep u _ _ => simp [mulOp] at u

/-! ### Written expressions -/

theorem tyTok_tok (t : Ty) : tyTok t.tok = some t := by cases t <;> rfl

theorem unOp_sym (o : UnOp) : unOp o.sym = some o := by cases o <;> rfl

theorem unit_ntOf {ts : List Tok} {o : Out} (h : D .unit ts o) (k : Nat) (hk : k ≤ 4) : D (ntOf k) ts o :=
  ntOf_up (j := 4) (.unaryOf h) hk

theorem unit_ite {ts : List Tok} {o : Out} (h : D .unit ts o) : D .ite ts o := .iteOf (unit_ntOf h 0 (by omega))

/-- An operator between two units, as a complex expression. -/
theorem complex_bin (o : BinOp) {x y : List Tok} {a b : Ast} (hx : D .unit x (.one a)) (hy : D .unit y (.one b)) :
    D .complex (x ++ .sym o.sym :: y) (.one (.bin o a b)) := by
  cases o
  case and => exact .complexAndOr (.andOr (unit_ntOf hx 0 (by omega)) rfl (unit_ntOf hy 1 (by omega)))
  case or => exact .complexAndOr (.andOr (unit_ntOf hx 0 (by omega)) rfl (unit_ntOf hy 1 (by omega)))
  case xor => exact .complexAndOr (.andOr (unit_ntOf hx 0 (by omega)) rfl (unit_ntOf hy 1 (by omega)))
  case eq => exact .complexCmp (.cmp (unit_ntOf hx 2 (by omega)) rfl (unit_ntOf hy 2 (by omega)))
  case neq => exact .complexCmp (.cmp (unit_ntOf hx 2 (by omega)) rfl (unit_ntOf hy 2 (by omega)))
  case lt => exact .complexCmp (.cmp (unit_ntOf hx 2 (by omega)) rfl (unit_ntOf hy 2 (by omega)))
  case leq => exact .complexCmp (.cmp (unit_ntOf hx 2 (by omega)) rfl (unit_ntOf hy 2 (by omega)))
  case gt => exact .complexCmp (.cmp (unit_ntOf hx 2 (by omega)) rfl (unit_ntOf hy 2 (by omega)))
  case geq => exact .complexCmp (.cmp (unit_ntOf hx 2 (by omega)) rfl (unit_ntOf hy 2 (by omega)))
  case add => exact .complexAdd (.add (unit_ntOf hx 2 (by omega)) rfl (unit_ntOf hy 3 (by omega)))
  case sub => exact .complexAdd (.add (unit_ntOf hx 2 (by omega)) rfl (unit_ntOf hy 3 (by omega)))
  case mul => exact .complexMul (.mul (unit_ntOf hx 3 (by omega)) rfl (unit_ntOf hy 4 (by omega)))
  case div => exact .complexMul (.mul (unit_ntOf hx 3 (by omega)) rfl (unit_ntOf hy 4 (by omega)))
  case mod => exact .complexMul (.mul (unit_ntOf hx 3 (by omega)) rfl (unit_ntOf hy 4 (by omega)))

mutual
theorem written_unit : ∀ e : Ast, D .unit (written e) (.one e)
  | .lit _ => .lit
  | .var _ => .var
  | .wild => .wild
  | .bin o a b => by
    have := D.paren (complex_bin o (written_unit a) (written_unit b))
    simpa [written] using this
  | .un o a => by
    have := D.paren (.complexUnary (.prefix (unOp_sym o) (written_unit a)))
    simpa [written] using this
  | .cast a t => by
    have := D.paren (.complexUnary (.cast (written_unit a) (tyTok_tok t)))
    simpa [written] using this
  | .ite c t e => by
    have := D.paren (.complexIte (.ifThenElse (unit_ntOf (written_unit c) 0 (by omega)) (unit_ite (written_unit t))
      (unit_ite (written_unit e))))
    simpa [written] using this
  | .call f es => by
    have := D.call (f := f) (writtenArgs_args es)
    simpa [written] using this
  | .new f es => by
    have := D.new (f := f) (writtenArgs_args es)
    simpa [written] using this

theorem writtenArgs_args : ∀ es : List Ast, D .args (writtenArgs es) (.many es)
  | [] => .noArg
  | e :: es => .arg (unit_ite (written_unit e)) (writtenArgs_args es)
end

mutual
theorem shown_ite : ∀ e : Ast, NoInnerIte e → D .ite (shown e) (.one e)
  | .lit _, _ => unit_ite .lit
  | .var _, _ => unit_ite .var
  | .wild, _ => unit_ite .wild
  | .bin o a b, h => by
    have := D.paren (complex_bin o (shown_unit a h.1) (shown_unit b h.2))
    simpa [shown] using unit_ite this
  | .un o a, h => by
    have := D.paren (.complexUnary (.prefix (unOp_sym o) (shown_unit a h)))
    simpa [shown] using unit_ite this
  | .cast a t, h => by
    have := D.paren (.complexUnary (.cast (shown_unit a h) (tyTok_tok t)))
    simpa [shown] using unit_ite this
  | .ite c t e, h => by
    have := D.iteOfB (.ifThenElse (unit_ntOf (shown_unit c h.1) 0 (by omega)) (shown_ite t h.2.1) (shown_ite e h.2.2))
    simpa [shown] using this
  | .call f es, h => by
    have := D.call (f := f) (shownArgs_args es h)
    simpa [shown] using unit_ite this
  | .new f es, h => by
    have := D.new (f := f) (shownArgs_args es h)
    simpa [shown] using unit_ite this

theorem shown_unit : ∀ e : Ast, NoIte e → D .unit (shown e) (.one e)
  | .lit _, _ => .lit
  | .var _, _ => .var
  | .wild, _ => .wild
  | .bin o a b, h => by
    have := D.paren (complex_bin o (shown_unit a h.1) (shown_unit b h.2))
    simpa [shown] using this
  | .un o a, h => by
    have := D.paren (.complexUnary (.prefix (unOp_sym o) (shown_unit a h)))
    simpa [shown] using this
  | .cast a t, h => by
    have := D.paren (.complexUnary (.cast (shown_unit a h) (tyTok_tok t)))
    simpa [shown] using this
  | .ite _ _ _, h => absurd h (by simp [NoIte])
  | .call f es, h => by
    have := D.call (f := f) (shownArgs_args es h)
    simpa [shown] using this
  | .new f es, h => by
    have := D.new (f := f) (shownArgs_args es h)
    simpa [shown] using this

theorem shownArgs_args : ∀ es : List Ast, NoInnerIteAll es → D .args (shownArgs es) (.many es)
  | [], _ => .noArg
  | [e], h => .lastArg (shown_ite e h.1)
  | e :: e' :: es, h => .arg (shown_ite e h.1) (shownArgs_args (e' :: es) h.2)
end

end Scallop.Syn
