import Verif.Proof.Front2

/-! # Lemmas on the flattening of expressions -/

namespace Scallop.Front

open Scallop.Back (Term Atom AExpr COp Lit Head Rule)

variable {F : Type} {X : Ext F} {D : DB F} {G : Aggs F}

/-- The variables made with the numbers from `n` to `m`, and those not made by flattening. -/
def FScope (n m : Nat) (x : Name) : Prop := x.IsSource ∨ ∃ i, n ≤ i ∧ i < m ∧ (x = .flat i ∨ x = .wc i)

theorem FScope.mono {n m n' m' : Nat} {x : Name} (h : FScope n m x) (h1 : n' ≤ n) (h2 : m ≤ m') : FScope n' m' x := by
  rcases h with h | ⟨i, h3, h4, h5⟩
  · exact .inl h
  · exact .inr ⟨i, by omega, by omega, h5⟩

/-- `τ` differs from `σ` only on the variables made with the numbers from `n` to `m`. -/
def FDiff (n m : Nat) (σ τ : Name → Val F) : Prop := ∀ x, (∀ i, n ≤ i → i < m → x ≠ .flat i ∧ x ≠ .wc i) → τ x = σ x

theorem FDiff.scope {n m k : Nat} {σ τ : Name → Val F} (h : FDiff m k σ τ) {x : Name} (hx : FScope n m x) : σ x = τ x := by
  refine (h x (fun i h1 h2 => ?_)).symm
  rcases hx with hx | ⟨j, h3, h4, h5⟩
  · cases x <;> simp_all [Name.IsSource]
  · rcases h5 with rfl | rfl <;> constructor <;> intro e <;> simp_all <;> omega

theorem FDiff.source {m k : Nat} {σ τ : Name → Val F} (h : FDiff m k σ τ) {x : Name} (hx : x.IsSource) : σ x = τ x :=
  h.scope (n := m) (.inl hx)

theorem FDiff.refl {n m : Nat} {σ : Name → Val F} : FDiff n m σ σ := fun _ _ => rfl

theorem FDiff.trans {n m k : Nat} {σ τ ρ : Name → Val F} (h : FDiff n m σ τ) (h' : FDiff m k τ ρ) (h1 : n ≤ m) (h2 : m ≤ k) : FDiff n k σ ρ :=
  fun x hx => (h' x (fun i a b => hx i (by omega) b)).trans (h x (fun i a b => hx i a (by omega)))

/-- The variable of a term satisfies `P`. -/
def TermIn (P : Name → Prop) (t : Term Name F) : Prop := ∀ x, t = .var x → P x

theorem TermIn.mono {P Q : Name → Prop} {t : Term Name F} (h : TermIn P t) (k : ∀ x, P x → Q x) : TermIn Q t := fun x e => k x (h x e)

theorem TermIn.val {P : Name → Prop} {σ τ : Name → Val F} (h : ∀ x, P x → σ x = τ x) {t : Term Name F} (ht : TermIn P t) : t.val σ = t.val τ := by
  cases t with
  | var x => exact h x (ht x rfl)
  | const c => rfl

theorem TermIn.vals {P : Name → Prop} {σ τ : Name → Val F} (h : ∀ x, P x → σ x = τ x) {ts : List (Term Name F)} (ht : ∀ t ∈ ts, TermIn P t) :
    ts.map (Term.val σ) = ts.map (Term.val τ) :=
  List.map_congr_left (fun t hm => (ht t hm).val h)

/-- The variables of a right-hand side satisfy `P`. -/
def AExprIn (P : Name → Prop) : AExpr Name F → Prop
  | .bin _ a b => TermIn P a ∧ TermIn P b
  | .un _ a => TermIn P a
  | .ite c t e => TermIn P c ∧ TermIn P t ∧ TermIn P e
  | .call _ args => ∀ t ∈ args, TermIn P t
  | .new _ args => ∀ t ∈ args, TermIn P t

/-- The variables of a literal satisfy `P`. -/
def LitIn (P : Name → Prop) : Lit Name F (Formula F) → Prop
  | .atom a => ∀ t ∈ a.args, TermIn P t
  | .neg a => ∀ t ∈ a.args, TermIn P t
  | .assign x e => P x ∧ AExprIn P e
  | .cbin _ a b => TermIn P a ∧ TermIn P b
  | .cnot a => TermIn P a
  | .reduce f _ => f.NamesIn P
  | .tt => True
  | .ff => True

theorem AExprIn.mono {P Q : Name → Prop} (k : ∀ x, P x → Q x) : ∀ {e : AExpr Name F}, AExprIn P e → AExprIn Q e
  | .bin _ _ _, h => ⟨h.1.mono k, h.2.mono k⟩
  | .un _ _, h => TermIn.mono h k
  | .ite _ _ _, h => ⟨h.1.mono k, h.2.1.mono k, h.2.2.mono k⟩
  | .call _ _, h => fun t ht => (h t ht).mono k
  | .new _ _, h => fun t ht => (h t ht).mono k

theorem AExprIn.val {P : Name → Prop} {σ τ : Name → Val F} (h : ∀ x, P x → σ x = τ x) : ∀ {e : AExpr Name F}, AExprIn P e → e.val X σ = e.val X τ
  | .bin _ _ _, k => by simp [AExpr.val, k.1.val h, k.2.val h]
  | .un _ _, k => by simp [AExpr.val, TermIn.val h k]
  | .ite _ _ _, k => by simp [AExpr.val, k.1.val h, k.2.1.val h, k.2.2.val h]
  | .call _ _, k => by rw [AExpr.val, AExpr.val, TermIn.vals h k]
  | .new _ _, k => by rw [AExpr.val, AExpr.val, TermIn.vals h k]

mutual
theorem entityNames_mono {P Q : Name → Prop} (h : ∀ x, P x → Q x) : ∀ e : Entity F, e.NamesIn P → e.NamesIn Q
  | .expr e, k => by simp only [Entity.NamesIn] at k ⊢; exact exprNames_mono h e k
  | .object _ as, k => by simp only [Entity.NamesIn] at k ⊢; exact entitiesNames_mono h as k
theorem entitiesNames_mono {P Q : Name → Prop} (h : ∀ x, P x → Q x) : ∀ es : List (Entity F), Entity.AllNamesIn P es → Entity.AllNamesIn Q es
  | [], _ => trivial
  | e :: es, k => ⟨entityNames_mono h e k.1, entitiesNames_mono h es k.2⟩
end

mutual
theorem names_mono {P Q : Name → Prop} (h : ∀ x, P x → Q x) : ∀ f : Formula F, f.NamesIn P → f.NamesIn Q
  | .atom _ args, k => by simp only [Formula.NamesIn] at k ⊢; exact exprsNames_mono h args k
  | .neg _ args, k => by simp only [Formula.NamesIn] at k ⊢; exact exprsNames_mono h args k
  | .case v e, k => ⟨h v k.1, entityNames_mono h e k.2⟩
  | .disj fs, k => by simp only [Formula.NamesIn] at k ⊢; exact allNames_mono h fs k
  | .conj fs, k => by simp only [Formula.NamesIn] at k ⊢; exact allNames_mono h fs k
  | .implies l r, k => ⟨names_mono h l k.1, names_mono h r k.2⟩
  | .constraint e, k => by simp only [Formula.NamesIn] at k ⊢; exact exprNames_mono h e k
  | .reduce left op args bindings body gv gb, k =>
    ⟨fun b hb => h b (k.1 b hb), fun x hx => h x (k.2.1 x hx), fun x hx => h x (k.2.2.1 x hx), names_mono h body k.2.2.2.1,
      fun x hx => h x (k.2.2.2.2.1 x hx), allNames_mono h gb k.2.2.2.2.2⟩
  | .quant n a b bindings body gv gb, k =>
    ⟨fun x hx => h x (k.1 x hx), names_mono h body k.2.1, fun x hx => h x (k.2.2.1 x hx), allNames_mono h gb k.2.2.2⟩
  | .range x lo hi _, k => ⟨h x k.1, exprNames_mono h lo k.2.1, exprNames_mono h hi k.2.2⟩
theorem allNames_mono {P Q : Name → Prop} (h : ∀ x, P x → Q x) : ∀ fs : List (Formula F), Formula.NamesIn.allNamesIn P fs → Formula.NamesIn.allNamesIn Q fs
  | [], _ => trivial
  | f :: fs, k => ⟨names_mono h f k.1, allNames_mono h fs k.2⟩
end

theorem LitIn.mono {P Q : Name → Prop} (k : ∀ x, P x → Q x) : ∀ {l : Lit Name F (Formula F)}, LitIn P l → LitIn Q l
  | .atom _, h => fun t ht => (h t ht).mono k
  | .neg _, h => fun t ht => (h t ht).mono k
  | .assign _ _, h => ⟨k _ h.1, h.2.mono k⟩
  | .cbin _ _ _, h => ⟨h.1.mono k, h.2.mono k⟩
  | .cnot _, h => TermIn.mono h k
  | .reduce f _, h => names_mono k f h
  | .tt, _ => trivial
  | .ff, _ => trivial

theorem neg_congr_aux {P : Name → Prop} {σ τ : Name → Val F} (h : ∀ x, P x → σ x = τ x) {a : Atom Name F} (ha : ∀ t ∈ a.args, TermIn P t)
    (k : ∃ ρ : Name → Val F, (∀ x, (∀ n, x ≠ .wc n) → ρ x = σ x) ∧ D a.predicate (a.args.map (Term.val ρ))) :
    ∃ ρ : Name → Val F, (∀ x, (∀ n, x ≠ .wc n) → ρ x = τ x) ∧ D a.predicate (a.args.map (Term.val ρ)) := by
  classical
  obtain ⟨ρ, h1, h2⟩ := k
  refine ⟨fun x => if ∃ n, x = .wc n then ρ x else τ x, fun x hx => ?_, ?_⟩
  · have : ¬ ∃ n, x = .wc n := fun ⟨n, e⟩ => hx n e
    simp only [if_neg this]
  · rwa [← TermIn.vals (P := P) (σ := ρ) (fun x hx => ?_) ha]
    by_cases hw : ∃ n, x = .wc n
    · simp [hw]
    · rw [if_neg hw, h1 x (fun n e => hw ⟨n, e⟩), h x hx]

theorem LitIn.holds {P V : Name → Prop} {σ τ : Name → Val F} (h : ∀ x, P x → σ x = τ x) (hV : ∀ x, V x → P x) :
    ∀ {l : Lit Name F (Formula F)}, LitIn P l → (LitHolds X D G V σ l ↔ LitHolds X D G V τ l)
  | .atom a, k => by simp only [LitHolds, TermIn.vals h k]
  | .neg a, k => by
    simp only [LitHolds]
    exact not_congr ⟨neg_congr_aux h k, neg_congr_aux (fun x hx => (h x hx).symm) k⟩
  | .assign x e, k => by simp only [LitHolds, AExprIn.val h k.2, h x k.1]
  | .cbin _ _ _, k => by simp only [LitHolds, k.1.val h, k.2.val h]
  | .cnot _, k => by simp only [LitHolds, TermIn.val h k]
  | .reduce f _, k => holds_congr h f k V hV
  | .tt, _ => Iff.rfl
  | .ff, _ => Iff.rfl

/-- The literals that are not hints are true. -/
def LitsHold (X : Ext F) (D : DB F) (G : Aggs F) (V : Name → Prop) (σ : Name → Val F) (ls : List (FLit F)) : Prop :=
  ∀ l ∈ ls, l.hint = false → LitHolds X D G V σ l.lit

theorem litsHold_cons {V : Name → Prop} {σ : Name → Val F} {l : FLit F} {ls : List (FLit F)} :
    LitsHold X D G V σ (l :: ls) ↔ (l.hint = false → LitHolds X D G V σ l.lit) ∧ LitsHold X D G V σ ls := by
  simp [LitsHold]

theorem litsHold_append {V : Name → Prop} {σ : Name → Val F} {ks ls : List (FLit F)} :
    LitsHold X D G V σ (ks ++ ls) ↔ LitsHold X D G V σ ks ∧ LitsHold X D G V σ ls := by
  simp only [LitsHold, List.mem_append, or_imp, forall_and]

theorem litsHold_nil {V : Name → Prop} {σ : Name → Val F} : LitsHold X D G V σ [] := by simp [LitsHold]

theorem litsHold_hints {V : Name → Prop} {σ : Name → Val F} (left : Name) (op : BinOp) (t₁ t₂ : Term Name F) :
    LitsHold X D G V σ (hints left op t₁ t₂) := by
  intro l hl hh
  unfold hints at hl
  generalize invOp op = o at hl
  cases o with
  | none => simp at hl
  | some inv =>
    cases t₁ <;> cases t₂ <;> simp at hl
    · rcases hl with rfl | rfl <;> simp at hh
    · subst hl; simp at hh
    · subst hl; simp at hh

/-- The variables of the literals satisfy `P`. -/
def LitsIn (P : Name → Prop) (ls : List (FLit F)) : Prop := ∀ l ∈ ls, LitIn P l.lit

theorem LitsIn.mono {P Q : Name → Prop} {ls : List (FLit F)} (h : LitsIn P ls) (k : ∀ x, P x → Q x) : LitsIn Q ls := fun l hl => (h l hl).mono k

theorem LitsIn.append {P : Name → Prop} {ks ls : List (FLit F)} (h : LitsIn P ks) (k : LitsIn P ls) : LitsIn P (ks ++ ls) := by
  intro l hl
  rcases List.mem_append.1 hl with hl | hl
  · exact h l hl
  · exact k l hl

theorem LitsIn.cons {P : Name → Prop} {l : FLit F} {ls : List (FLit F)} (h : LitIn P l.lit) (k : LitsIn P ls) : LitsIn P (l :: ls) := by
  intro l' hl
  rcases List.mem_cons.1 hl with rfl | hl
  · exact h
  · exact k l' hl

theorem LitsIn.nil {P : Name → Prop} : LitsIn P ([] : List (FLit F)) := by simp [LitsIn]

theorem LitsIn.holds {P V : Name → Prop} {σ τ : Name → Val F} (h : ∀ x, P x → σ x = τ x) (hV : ∀ x, V x → P x) {ls : List (FLit F)}
    (k : LitsIn P ls) : LitsHold X D G V σ ls ↔ LitsHold X D G V τ ls :=
  forall₂_congr fun l hl => forall_congr' fun _ => (k l hl).holds h hV

theorem hints_in {P : Name → Prop} {left : Name} {op : BinOp} {t₁ t₂ : Term Name F} (h : P left) (h1 : TermIn P t₁) (h2 : TermIn P t₂) :
    LitsIn P (hints left op t₁ t₂) := by
  intro l hl
  have hleft : TermIn (F := F) P (.var left) := fun x e => by
    rw [Term.var.injEq] at e
    exact e ▸ h
  unfold hints at hl
  generalize invOp op = o at hl
  cases o with
  | none => simp at hl
  | some inv =>
    cases t₁ <;> cases t₂ <;> simp at hl
    · rcases hl with rfl | rfl
      · exact ⟨h1 _ rfl, hleft, h2⟩
      · exact ⟨h2 _ rfl, hleft, h1⟩
    · subst hl; exact ⟨h1 _ rfl, hleft, h2⟩
    · subst hl; exact ⟨h2 _ rfl, hleft, h1⟩

theorem termIn_var {P : Name → Prop} {x : Name} (h : P x) : TermIn (F := F) P (.var x) := fun y e => by
  rw [Term.var.injEq] at e
  exact e ▸ h

mutual
/-- Flattening uses only the variables it may use. -/
theorem flatten_scope : ∀ (e : FExpr F), e.NamesIn Name.IsSource → ∀ n,
    n ≤ (e.flatten n).2.2 ∧ TermIn (FScope n (e.flatten n).2.2) (e.flatten n).1 ∧ LitsIn (FScope n (e.flatten n).2.2) (e.flatten n).2.1
  | .const c, _, n => ⟨Nat.le_refl _, fun x e => by simp [FExpr.flatten] at e, .nil⟩
  | .var x, h, n => ⟨Nat.le_refl _, termIn_var (.inl h), .nil⟩
  | .wild, _, n => ⟨Nat.le_succ _, termIn_var (.inr ⟨n, by omega, Nat.lt_succ_self n, .inr rfl⟩), .nil⟩
  | .bin op a b, h, n => by
    obtain ⟨a1, a2, a3⟩ := flatten_scope a h.1 (n + 1)
    obtain ⟨b1, b2, b3⟩ := flatten_scope b h.2 (a.flatten (n + 1)).2.2
    simp only [FExpr.flatten]
    have hl : FScope n (b.flatten (a.flatten (n + 1)).2.2).2.2 (.flat n) := .inr ⟨n, by omega, by omega, .inl rfl⟩
    have ha := a2.mono (Q := FScope n (b.flatten (a.flatten (n + 1)).2.2).2.2) (fun x hx => hx.mono (by omega) b1)
    have hb := b2.mono (Q := FScope n (b.flatten (a.flatten (n + 1)).2.2).2.2) (fun x hx => hx.mono (by omega) (Nat.le_refl _))
    refine ⟨by omega, termIn_var hl, .cons ⟨hl, ha, hb⟩ (.append (hints_in hl ha hb) (.append ?_ ?_))⟩
    · exact a3.mono (fun x hx => hx.mono (by omega) b1)
    · exact b3.mono (fun x hx => hx.mono (by omega) (Nat.le_refl _))
  | .un op a, h, n => by
    simp only [FExpr.NamesIn] at h
    obtain ⟨a1, a2, a3⟩ := flatten_scope a h (n + 1)
    simp only [FExpr.flatten]
    have hl : FScope n (a.flatten (n + 1)).2.2 (.flat n) := .inr ⟨n, by omega, by omega, .inl rfl⟩
    exact ⟨by omega, termIn_var hl, .cons ⟨hl, a2.mono (fun x hx => hx.mono (by omega) (Nat.le_refl _))⟩
      (a3.mono (fun x hx => hx.mono (by omega) (Nat.le_refl _)))⟩
  | .ite c t e, h, n => by
    obtain ⟨a1, a2, a3⟩ := flatten_scope c h.1 (n + 1)
    obtain ⟨b1, b2, b3⟩ := flatten_scope t h.2.1 (c.flatten (n + 1)).2.2
    obtain ⟨c1, c2, c3⟩ := flatten_scope e h.2.2 (t.flatten (c.flatten (n + 1)).2.2).2.2
    simp only [FExpr.flatten]
    have hl : FScope n (e.flatten (t.flatten (c.flatten (n + 1)).2.2).2.2).2.2 (.flat n) := .inr ⟨n, by omega, by omega, .inl rfl⟩
    refine ⟨by omega, termIn_var hl, .cons ⟨hl, a2.mono ?_, b2.mono ?_, c2.mono ?_⟩ (.append (a3.mono ?_) (.append (b3.mono ?_) (c3.mono ?_)))⟩ <;>
    exact fun x hx => hx.mono (by omega) (by omega)
  | .call f args, h, n => by
    simp only [FExpr.NamesIn] at h
    obtain ⟨a1, a2, a3⟩ := flattenAll_scope args h (n + 1)
    simp only [FExpr.flatten]
    have hl : FScope n (FExpr.flattenAll args (n + 1)).2.2 (.flat n) := .inr ⟨n, by omega, by omega, .inl rfl⟩
    exact ⟨by omega, termIn_var hl, .cons ⟨hl, fun t ht => (a2 t ht).mono (fun x hx => hx.mono (by omega) (Nat.le_refl _))⟩
      (a3.mono (fun x hx => hx.mono (by omega) (Nat.le_refl _)))⟩
  | .new f args, h, n => by
    simp only [FExpr.NamesIn] at h
    obtain ⟨a1, a2, a3⟩ := flattenAll_scope args h (n + 1)
    simp only [FExpr.flatten]
    have hl : FScope n (FExpr.flattenAll args (n + 1)).2.2 (.flat n) := .inr ⟨n, by omega, by omega, .inl rfl⟩
    exact ⟨by omega, termIn_var hl, .cons ⟨hl, fun t ht => (a2 t ht).mono (fun x hx => hx.mono (by omega) (Nat.le_refl _))⟩
      (a3.mono (fun x hx => hx.mono (by omega) (Nat.le_refl _)))⟩
theorem flattenAll_scope : ∀ (es : List (FExpr F)), FExpr.AllNamesIn Name.IsSource es → ∀ n,
    n ≤ (FExpr.flattenAll es n).2.2 ∧ (∀ t ∈ (FExpr.flattenAll es n).1, TermIn (FScope n (FExpr.flattenAll es n).2.2) t) ∧
      LitsIn (FScope n (FExpr.flattenAll es n).2.2) (FExpr.flattenAll es n).2.1
  | [], _, n => ⟨Nat.le_refl _, by simp [FExpr.flattenAll], .nil⟩
  | e :: es, h, n => by
    obtain ⟨a1, a2, a3⟩ := flatten_scope e h.1 n
    obtain ⟨b1, b2, b3⟩ := flattenAll_scope es h.2 (e.flatten n).2.2
    simp only [FExpr.flattenAll, List.mem_cons, forall_eq_or_imp]
    refine ⟨by omega, ⟨a2.mono (fun x hx => hx.mono (by omega) (by omega)), fun t ht => (b2 t ht).mono (fun x hx => hx.mono (by omega) (by omega))⟩,
      .append (a3.mono (fun x hx => hx.mono (by omega) (by omega))) (b3.mono (fun x hx => hx.mono (by omega) (by omega)))⟩
end

mutual
/-- Where the literals hold, the term has a value of the expression. -/
theorem flatten_sound {V : Name → Prop} {σ : Name → Val F} : ∀ (e : FExpr F) n, LitsHold X D G V σ (e.flatten n).2.1 →
    e.EvalsTo X σ ((e.flatten n).1.val σ)
  | .const c, n, _ => by simp [FExpr.EvalsTo, FExpr.flatten, Term.val]
  | .var x, n, _ => by simp [FExpr.EvalsTo, FExpr.flatten, Term.val]
  | .wild, n, _ => by simp [FExpr.EvalsTo]
  | .bin op a b, n, h => by
    simp only [FExpr.flatten, litsHold_cons, litsHold_append, forall_const] at h
    obtain ⟨h1, _, h2, h3⟩ := h
    simp only [FExpr.EvalsTo]
    exact ⟨_, _, flatten_sound a _ h2, flatten_sound b _ h3, h1⟩
  | .un op a, n, h => by
    simp only [FExpr.flatten, litsHold_cons, forall_const] at h
    obtain ⟨h1, h2⟩ := h
    simp only [FExpr.EvalsTo]
    exact ⟨_, flatten_sound a _ h2, h1⟩
  | .ite c t e, n, h => by
    simp only [FExpr.flatten, litsHold_cons, litsHold_append, forall_const] at h
    obtain ⟨h1, h2, h3, h4⟩ := h
    have hc := flatten_sound c _ h2
    have ht := flatten_sound t _ h3
    have he := flatten_sound e _ h4
    simp only [LitHolds, AExpr.val] at h1
    simp only [FExpr.EvalsTo, FExpr.flatten, Term.val]
    generalize Term.val σ (c.flatten (n + 1)).1 = w at h1 hc
    cases w with
    | bool b =>
      refine ⟨b, _, _, hc, ht, he, ?_⟩
      cases b <;> simp [Val.asBool?] at h1 <;> simp [h1]
    | _ => simp [Val.asBool?] at h1
  | .call f args, n, h => by
    simp only [FExpr.flatten, litsHold_cons, forall_const] at h
    obtain ⟨h1, h2⟩ := h
    simp only [FExpr.EvalsTo]
    exact ⟨_, flattenAll_sound args _ h2, h1⟩
  | .new f args, n, h => by
    simp only [FExpr.flatten, litsHold_cons, forall_const] at h
    obtain ⟨h1, h2⟩ := h
    simp only [FExpr.EvalsTo]
    refine ⟨_, flattenAll_sound args _ h2, ?_⟩
    simp only [LitHolds, AExpr.val, Outcome.ok.injEq] at h1
    simp [FExpr.flatten, Term.val, ← h1]
theorem flattenAll_sound {V : Name → Prop} {σ : Name → Val F} : ∀ (es : List (FExpr F)) n, LitsHold X D G V σ (FExpr.flattenAll es n).2.1 →
    FExpr.AllEvalTo X σ es ((FExpr.flattenAll es n).1.map (Term.val σ))
  | [], n, _ => by simp [FExpr.flattenAll, FExpr.AllEvalTo]
  | e :: es, n, h => by
    simp only [FExpr.flattenAll, litsHold_append] at h
    exact ⟨_, _, rfl, flatten_sound e _ h.1, flattenAll_sound es _ h.2⟩
end

/-- The value of one variable changed. -/
def upd (σ : Name → Val F) (x : Name) (w : Val F) : Name → Val F := fun y => if y = x then w else σ y

theorem upd_scope {σ : Name → Val F} {n m : Nat} {w : Val F} {x : Name} (hx : FScope (n + 1) m x) : σ x = upd σ (.flat n) w x := by
  have : x ≠ .flat n := by
    rcases hx with hx | ⟨i, h1, h2, rfl | rfl⟩
    · rintro rfl; exact hx
    · intro e; simp at e; omega
    · simp
  simp [upd, this]

theorem upd_diff {σ τ : Name → Val F} {n m : Nat} {w : Val F} (h : FDiff (n + 1) m σ τ) (hm : n < m) : FDiff n m σ (upd τ (.flat n) w) := by
  intro x hx
  have h0 := (hx n (Nat.le_refl _) hm).1
  simp only [upd, if_neg h0]
  exact h x (fun i a b => hx i (by omega) b)

mutual
/-- If the expression can take a value, the variables made can be given values so that the literals hold and the term has it. -/
theorem flatten_complete {V : Name → Prop} (hV : ∀ x, V x → x.IsSource) : ∀ (e : FExpr F), e.NamesIn Name.IsSource → ∀ n (σ : Name → Val F) w,
    e.EvalsTo X σ w → ∃ τ, FDiff n (e.flatten n).2.2 σ τ ∧ LitsHold X D G V τ (e.flatten n).2.1 ∧ (e.flatten n).1.val τ = w
  | .const c, _, n, σ, w, h => by
    simp only [FExpr.EvalsTo] at h
    exact ⟨σ, .refl, litsHold_nil, h.symm⟩
  | .var x, _, n, σ, w, h => by
    simp only [FExpr.EvalsTo] at h
    exact ⟨σ, .refl, litsHold_nil, h.symm⟩
  | .wild, _, n, σ, w, h => by
    refine ⟨fun y => if y = .wc n then w else σ y, fun x hx => ?_, litsHold_nil, by simp [FExpr.flatten, Term.val]⟩
    simp only [FExpr.flatten] at hx
    simp [(hx n (Nat.le_refl _) (Nat.lt_succ_self n)).2]
  | .bin op a b, hn, n, σ, w, h => by
    simp only [FExpr.EvalsTo] at h
    obtain ⟨x, y, hx, hy, hw⟩ := h
    obtain ⟨a1, a2, a3⟩ := flatten_scope a hn.1 (n + 1)
    obtain ⟨b1, b2, b3⟩ := flatten_scope b hn.2 (a.flatten (n + 1)).2.2
    obtain ⟨τ, t1, t2, t3⟩ := flatten_complete hV a hn.1 (n + 1) σ x hx
    obtain ⟨ρ, r1, r2, r3⟩ := flatten_complete hV b hn.2 (a.flatten (n + 1)).2.2 τ y
      ((evalsTo_congr (fun z hz => t1.source hz) b hn.2 y).1 hy)
    have hr : ∀ z, FScope (n + 1) (a.flatten (n + 1)).2.2 z → τ z = ρ z := fun z hz => r1.scope hz
    have hu : ∀ z, FScope (n + 1) (b.flatten (a.flatten (n + 1)).2.2).2.2 z → ρ z = upd ρ (.flat n) w z := fun z hz => upd_scope hz
    have hVs : ∀ {p q} z, V z → FScope p q z := fun z hz => .inl (hV z hz)
    have t2' := (a3.holds hr hVs).1 t2
    have t2'' := ((a3.mono (fun x hx => hx.mono (Nat.le_refl _) b1)).holds hu hVs).1 t2'
    have r2' := ((b3.mono (fun x hx => hx.mono (by omega) (Nat.le_refl _))).holds hu hVs).1 r2
    have hav : (a.flatten (n + 1)).1.val (upd ρ (.flat n) w) = x := by
      rw [← t3, a2.val hr, (a2.mono (fun x hx => hx.mono (Nat.le_refl _) b1)).val hu]
    have hbv : (b.flatten (a.flatten (n + 1)).2.2).1.val (upd ρ (.flat n) w) = y := by
      rw [← r3, (b2.mono (fun x hx => hx.mono (by omega) (Nat.le_refl _))).val hu]
    refine ⟨upd ρ (.flat n) w, upd_diff (t1.trans r1 (by omega) b1) (by simp only [FExpr.flatten]; omega), ?_, by simp [FExpr.flatten, Term.val, upd]⟩
    simp only [FExpr.flatten, litsHold_cons, litsHold_append, forall_const]
    refine ⟨?_, litsHold_hints _ _ _ _, t2'', r2'⟩
    simp only [LitHolds, AExpr.val, hav, hbv]
    simpa [upd] using hw
  | .un op a, hn, n, σ, w, h => by
    simp only [FExpr.EvalsTo] at h
    simp only [FExpr.NamesIn] at hn
    obtain ⟨x, hx, hw⟩ := h
    obtain ⟨a1, a2, a3⟩ := flatten_scope a hn (n + 1)
    obtain ⟨τ, t1, t2, t3⟩ := flatten_complete hV a hn (n + 1) σ x hx
    have hu : ∀ z, FScope (n + 1) (a.flatten (n + 1)).2.2 z → τ z = upd τ (.flat n) w z := fun z hz => upd_scope hz
    have hVs : ∀ {p q} z, V z → FScope p q z := fun z hz => .inl (hV z hz)
    have t2'' := (a3.holds hu hVs).1 t2
    have hav : (a.flatten (n + 1)).1.val (upd τ (.flat n) w) = x := by rw [← t3, a2.val hu]
    refine ⟨upd τ (.flat n) w, upd_diff t1 (by simp only [FExpr.flatten]; omega), ?_, by simp [FExpr.flatten, Term.val, upd]⟩
    simp only [FExpr.flatten, litsHold_cons, forall_const]
    refine ⟨?_, t2''⟩
    simp only [LitHolds, AExpr.val, hav]
    simpa [upd] using hw
  | .ite c t e, hn, n, σ, w, h => by
    simp only [FExpr.EvalsTo] at h
    obtain ⟨q, x, y, hq, hx, hy, hw⟩ := h
    obtain ⟨a1, a2, a3⟩ := flatten_scope c hn.1 (n + 1)
    obtain ⟨b1, b2, b3⟩ := flatten_scope t hn.2.1 (c.flatten (n + 1)).2.2
    obtain ⟨c1, c2, c3⟩ := flatten_scope e hn.2.2 (t.flatten (c.flatten (n + 1)).2.2).2.2
    obtain ⟨τ, t1, t2, t3⟩ := flatten_complete hV c hn.1 (n + 1) σ _ hq
    obtain ⟨ρ, r1, r2, r3⟩ := flatten_complete hV t hn.2.1 (c.flatten (n + 1)).2.2 τ x
      ((evalsTo_congr (fun z hz => t1.source hz) t hn.2.1 x).1 hx)
    have tr := t1.trans r1 a1 b1
    obtain ⟨π, p1, p2, p3⟩ := flatten_complete hV e hn.2.2 (t.flatten (c.flatten (n + 1)).2.2).2.2 ρ y
      ((evalsTo_congr (fun z hz => tr.source hz) e hn.2.2 y).1 hy)
    have hr : ∀ z, FScope (n + 1) (c.flatten (n + 1)).2.2 z → τ z = ρ z := fun z hz => r1.scope hz
    have hp : ∀ z, FScope (n + 1) (t.flatten (c.flatten (n + 1)).2.2).2.2 z → ρ z = π z := fun z hz => p1.scope hz
    have hu : ∀ z, FScope (n + 1) (e.flatten (t.flatten (c.flatten (n + 1)).2.2).2.2).2.2 z → π z = upd π (.flat n) w z := fun z hz => upd_scope hz
    have hVs : ∀ {p q} z, V z → FScope p q z := fun z hz => .inl (hV z hz)
    have m1 : ∀ z, FScope (n + 1) (c.flatten (n + 1)).2.2 z → FScope (n + 1) (t.flatten (c.flatten (n + 1)).2.2).2.2 z := fun z hz => hz.mono (Nat.le_refl _) b1
    have m2 : ∀ z, FScope (n + 1) (t.flatten (c.flatten (n + 1)).2.2).2.2 z → FScope (n + 1) (e.flatten (t.flatten (c.flatten (n + 1)).2.2).2.2).2.2 z :=
      fun z hz => hz.mono (Nat.le_refl _) c1
    have m3 : ∀ z, FScope (c.flatten (n + 1)).2.2 (t.flatten (c.flatten (n + 1)).2.2).2.2 z → FScope (n + 1) (t.flatten (c.flatten (n + 1)).2.2).2.2 z :=
      fun z hz => hz.mono a1 (Nat.le_refl _)
    have m4 : ∀ z, FScope (t.flatten (c.flatten (n + 1)).2.2).2.2 (e.flatten (t.flatten (c.flatten (n + 1)).2.2).2.2).2.2 z →
        FScope (n + 1) (e.flatten (t.flatten (c.flatten (n + 1)).2.2).2.2).2.2 z := fun z hz => hz.mono (by omega) (Nat.le_refl _)
    have hcτ : ∀ z, FScope (n + 1) (c.flatten (n + 1)).2.2 z → τ z = upd π (.flat n) w z :=
      fun z hz => (hr z hz).trans ((hp z (m1 z hz)).trans (hu z (m2 z (m1 z hz))))
    have htρ : ∀ z, FScope (c.flatten (n + 1)).2.2 (t.flatten (c.flatten (n + 1)).2.2).2.2 z → ρ z = upd π (.flat n) w z :=
      fun z hz => (hp z (m3 z hz)).trans (hu z (m2 z (m3 z hz)))
    have heπ : ∀ z, FScope (t.flatten (c.flatten (n + 1)).2.2).2.2 (e.flatten (t.flatten (c.flatten (n + 1)).2.2).2.2).2.2 z →
        π z = upd π (.flat n) w z := fun z hz => hu z (m4 z hz)
    refine ⟨upd π (.flat n) w, upd_diff (tr.trans p1 (by omega) c1) (by simp only [FExpr.flatten]; omega), ?_, by simp [FExpr.flatten, Term.val, upd]⟩
    simp only [FExpr.flatten, litsHold_cons, litsHold_append, forall_const]
    refine ⟨?_, (a3.holds hcτ hVs).1 t2, (b3.holds htρ hVs).1 r2, (c3.holds heπ hVs).1 p2⟩
    simp only [LitHolds, AExpr.val, ← a2.val hcτ, ← b2.val htρ, ← c2.val heπ, t3, r3, p3]
    cases q <;> simp [Val.asBool?, upd, hw]
  | .call f args, hn, n, σ, w, h => by
    simp only [FExpr.EvalsTo] at h
    simp only [FExpr.NamesIn] at hn
    obtain ⟨x, hx, hw⟩ := h
    obtain ⟨a1, a2, a3⟩ := flattenAll_scope args hn (n + 1)
    obtain ⟨τ, t1, t2, t3⟩ := flattenAll_complete hV args hn (n + 1) σ x hx
    have hu : ∀ z, FScope (n + 1) (FExpr.flattenAll args (n + 1)).2.2 z → τ z = upd τ (.flat n) w z := fun z hz => upd_scope hz
    have hVs : ∀ {p q} z, V z → FScope p q z := fun z hz => .inl (hV z hz)
    refine ⟨upd τ (.flat n) w, upd_diff t1 (by simp only [FExpr.flatten]; omega), ?_, by simp [FExpr.flatten, Term.val, upd]⟩
    simp only [FExpr.flatten, litsHold_cons, forall_const]
    refine ⟨?_, (a3.holds hu hVs).1 t2⟩
    simp only [LitHolds, AExpr.val, ← TermIn.vals hu a2, t3]
    simpa [upd] using hw
  | .new f args, hn, n, σ, w, h => by
    simp only [FExpr.EvalsTo] at h
    simp only [FExpr.NamesIn] at hn
    obtain ⟨x, hx, hw⟩ := h
    obtain ⟨a1, a2, a3⟩ := flattenAll_scope args hn (n + 1)
    obtain ⟨τ, t1, t2, t3⟩ := flattenAll_complete hV args hn (n + 1) σ x hx
    have hu : ∀ z, FScope (n + 1) (FExpr.flattenAll args (n + 1)).2.2 z → τ z = upd τ (.flat n) w z := fun z hz => upd_scope hz
    have hVs : ∀ {p q} z, V z → FScope p q z := fun z hz => .inl (hV z hz)
    refine ⟨upd τ (.flat n) w, upd_diff t1 (by simp only [FExpr.flatten]; omega), ?_, by simp [FExpr.flatten, Term.val, upd]⟩
    simp only [FExpr.flatten, litsHold_cons, forall_const]
    refine ⟨?_, (a3.holds hu hVs).1 t2⟩
    simp only [LitHolds, AExpr.val, ← TermIn.vals hu a2, t3]
    simp [upd, hw]
theorem flattenAll_complete {V : Name → Prop} (hV : ∀ x, V x → x.IsSource) : ∀ (es : List (FExpr F)), FExpr.AllNamesIn Name.IsSource es →
    ∀ n (σ : Name → Val F) ws, FExpr.AllEvalTo X σ es ws → ∃ τ, FDiff n (FExpr.flattenAll es n).2.2 σ τ ∧
      LitsHold X D G V τ (FExpr.flattenAll es n).2.1 ∧ (FExpr.flattenAll es n).1.map (Term.val τ) = ws
  | [], _, n, σ, ws, h => by
    simp only [FExpr.AllEvalTo] at h
    exact ⟨σ, .refl, litsHold_nil, h.symm⟩
  | e :: es, hn, n, σ, ws, h => by
    simp only [FExpr.AllEvalTo] at h
    obtain ⟨w, ws', rfl, h1, h2⟩ := h
    obtain ⟨a1, a2, a3⟩ := flatten_scope e hn.1 n
    obtain ⟨b1, b2, b3⟩ := flattenAll_scope es hn.2 (e.flatten n).2.2
    obtain ⟨τ, t1, t2, t3⟩ := flatten_complete hV e hn.1 n σ w h1
    obtain ⟨ρ, r1, r2, r3⟩ := flattenAll_complete hV es hn.2 (e.flatten n).2.2 τ ws'
      ((allEvalTo_congr (fun z hz => t1.source hz) es hn.2 ws').1 h2)
    have hr : ∀ z, FScope n (e.flatten n).2.2 z → τ z = ρ z := fun z hz => r1.scope hz
    have hVs : ∀ {p q} z, V z → FScope p q z := fun z hz => .inl (hV z hz)
    refine ⟨ρ, t1.trans r1 a1 b1, ?_, ?_⟩
    · simp only [FExpr.flattenAll, litsHold_append]
      exact ⟨(a3.holds hr hVs).1 t2, r2⟩
    · simp only [FExpr.flattenAll, List.map_cons, r3, ← a2.val hr, t3]
end

end Scallop.Front
