import Verif.Proof.Back

/-!
# The loop of constant folding and propagation
-/

namespace Scallop.Back

variable {N F R : Type}

/-! ## Termination -/

/-- A measure that every effective rewriting decreases. -/
def Lit.weight : Lit N F R → Nat
  | .assign _ _ => 2
  | .cbin _ _ _ => 1
  | .cnot _ => 1
  | _ => 0

def weight (body : List (Lit N F R)) : Nat := (body.map Lit.weight).sum

theorem foldResult_weight {x : N} {o : Outcome (Val F)} {l' : Lit N F R} (h : foldResult x o = some l') : l'.weight < 2 := by
  cases o <;> simp only [foldResult, Option.some.injEq, reduceCtorEq] at h <;> subst h <;> simp [Lit.weight]

theorem foldTest_weight {o : Outcome (Val F)} {l' : Lit N F R} (h : foldTest o = some l') : l'.weight = 0 := by
  cases o with
  | ok v =>
    cases v <;> simp [foldTest, Val.asBool?] at h
    subst h
    rename_i b
    cases b <;> simp [Lit.weight]
  | undef => simp only [foldTest, Option.some.injEq] at h; subst h; rfl
  | panic => simp [foldTest] at h

theorem foldLit_weight [DecidableEq N] {X : Ext F} {l l' : Lit N F R} (h : foldLit X l = some l') :
    l' = l ∨ l'.weight < l.weight := by
  unfold foldLit at h
  split at h
  · exact .inr (foldResult_weight h)
  · exact .inr (foldResult_weight h)
  · obtain rfl := Option.some.inj h; exact .inr (by simp [Lit.weight])
  · obtain rfl := Option.some.inj h; exact .inr (by simp [Lit.weight])
  · split at h
    · obtain rfl := Option.some.inj h; exact .inr (by simp [Lit.weight])
    · obtain rfl := Option.some.inj h; exact .inl rfl
  · exact .inr (by rw [foldTest_weight h]; simp [Lit.weight])
  · obtain rfl := Option.some.inj h
    split
    · exact .inr (by simp [Lit.weight])
    · exact .inl rfl
  · obtain rfl := Option.some.inj h
    split
    · exact .inr (by simp [Lit.weight])
    · exact .inl rfl
  · exact .inr (by rw [foldTest_weight h]; simp [Lit.weight])
  · obtain rfl := Option.some.inj h; exact .inl rfl

theorem foldBody_weight [DecidableEq N] {X : Ext F} {b b' : List (Lit N F R)} (h : b.mapM (foldLit X) = some b') :
    b' = b ∨ weight b' < weight b := by
  induction b generalizing b' with
  | nil => simp at h; exact .inl h
  | cons l b ih =>
    simp only [List.mapM_cons, Option.bind_eq_bind, Option.bind_eq_some_iff, Option.pure_def, Option.some.injEq] at h
    obtain ⟨l', h1, b'', h2, rfl⟩ := h
    simp only [weight, List.map_cons, List.sum_cons]
    rcases foldLit_weight h1 with rfl | hl <;> rcases ih h2 with rfl | hb
    · exact .inl rfl
    · exact .inr (by simp only [weight] at hb; omega)
    · exact .inr (by omega)
    · exact .inr (by simp only [weight] at hb; omega)

theorem constantFold_weight [DecidableEq N] {X : Ext F} {r r' : Rule N F R} (h : constantFold X r = some r') :
    r' = r ∨ weight r'.body < weight r.body := by
  simp only [constantFold, Option.map_eq_some_iff] at h
  obtain ⟨b, h1, rfl⟩ := h
  rcases foldBody_weight h1 with rfl | h
  · exact .inl rfl
  · exact .inr h

theorem propLit_weight [BEq N] (s : List (N × Val F)) (l : Lit N F R) : (propLit s l).weight ≤ l.weight := by
  cases l with
  | assign x e => rw [propLit]; split <;> simp [Lit.weight]
  | _ => exact Nat.le_refl _

theorem weight_filter_map_le {p : Lit N F R → Bool} {g : Lit N F R → Lit N F R} (hg : ∀ l, (g l).weight ≤ l.weight)
    (b : List (Lit N F R)) : weight ((b.filter p).map g) ≤ weight b := by
  induction b with
  | nil => simp [weight]
  | cons l b ih =>
    rw [List.filter_cons]
    split
    · simp only [weight, List.map_cons, List.sum_cons] at ih ⊢
      have := hg l; omega
    · simp only [weight, List.map_cons, List.sum_cons] at ih ⊢; omega

theorem weight_filter_map_lt {p : Lit N F R → Bool} {g : Lit N F R → Lit N F R} (hg : ∀ l, (g l).weight ≤ l.weight)
    (b : List (Lit N F R)) (l : Lit N F R) (hl : l ∈ b) (hp : p l = false) (hw : 0 < l.weight) :
    weight ((b.filter p).map g) < weight b := by
  induction b with
  | nil => simp at hl
  | cons m b ih =>
    have hle := weight_filter_map_le (p := p) hg b
    rw [List.filter_cons]
    rcases List.mem_cons.mp hl with rfl | hl
    · rw [hp]
      simp only [weight, List.map_cons, List.sum_cons, Bool.false_eq_true, if_false] at hle ⊢
      omega
    · have := ih hl
      split
      · simp only [weight, List.map_cons, List.sum_cons] at this ⊢
        have := hg m; omega
      · simp only [weight, List.map_cons, List.sum_cons] at this ⊢; omega

theorem weight_pos_of_mem {b : List (Lit N F R)} {l : Lit N F R} (hl : l ∈ b) (hw : 0 < l.weight) : 0 < weight b := by
  induction b with
  | nil => simp at hl
  | cons m b ih =>
    simp only [weight, List.map_cons, List.sum_cons] at ih ⊢
    rcases List.mem_cons.mp hl with rfl | hl
    · omega
    · have := ih hl; omega

section
variable [DecidableEq N] [DecidableEq F]

theorem substConst_nil (t : Term N F) : substConst [] t = t := by cases t <;> rfl

theorem propLit_nil (l : Lit N F R) : propLit [] l = l := by
  have ht : (substConst [] : Term N F → Term N F) = id := funext substConst_nil
  have ha : ∀ a : Atom N F, a.map (substConst []) = a := by intro a; simp [Atom.map, ht]
  cases l with
  | atom a => simp [propLit, ha]
  | neg a => simp [propLit, ha]
  | assign x e => cases e <;> simp [propLit, AExpr.map, ht]
  | cbin op a b => simp [propLit, ht]
  | cnot a => simp [propLit, ht]
  | _ => rfl

theorem head_map_nil (h : Head N F) : h.map (substConst []) = h := by
  have ht : (substConst [] : Term N F → Term N F) = id := funext substConst_nil
  have ha : (Atom.map (substConst []) : Atom N F → Atom N F) = id := by funext a; simp [Atom.map, ht]
  cases h with
  | atom a => simp [Head.map, ha]
  | disj as => simp [Head.map, ha]

theorem collect_none (X : Ext F) (cannot : List N) (body : List (Lit N F R))
    (h : ∀ l ∈ body, constEq? cannot l = none) : collectConst X cannot body = ([], false) := by
  rw [collectConst_eq]
  induction body with
  | nil => rfl
  | cons l body ih =>
    rw [List.foldl_cons]
    have : collectStep X cannot ([], false) l = ([], false) := by simp [collectStep, h l (by simp)]
    rw [this]; exact ih (fun m hm => h m (by simp [hm]))

theorem constantProp_weight {X : Ext F} {r r' : Rule N F R} (h : constantProp X r = some r') :
    r' = r ∨ weight r'.body < weight r.body := by
  simp only [constantProp, Option.map_eq_some_iff] at h
  obtain ⟨cannot, _, rfl⟩ := h
  by_cases hex : ∃ l ∈ r.body, (constEq? cannot l).isSome
  · obtain ⟨l, hl, hs⟩ := hex
    obtain ⟨⟨v, c⟩, e⟩ := Option.isSome_iff_exists.mp hs
    have hw : 0 < l.weight := by rcases (constEq_not_cannot e).2 with rfl | rfl <;> simp [Lit.weight]
    right
    split
    · exact weight_pos_of_mem hl hw
    · exact weight_filter_map_lt (propLit_weight _) r.body l hl (by simp [e]) hw
  · have hnone : ∀ l ∈ r.body, constEq? cannot l = none := by
      intro l hl
      cases hq : constEq? cannot l with
      | none => rfl
      | some p => exact absurd ⟨l, hl, by simp [hq]⟩ hex
    left
    rw [collect_none X cannot r.body hnone]
    have hfil : r.body.filter (fun l => (constEq? cannot l).isNone) = r.body := by
      rw [List.filter_eq_self]; intro l hl; simp [hnone l hl]
    have hid : (propLit [] : Lit N F R → Lit N F R) = id := funext propLit_nil
    simp [hfil, hid, head_map_nil]

theorem constantProp_isSome (X : Ext F) (r : Rule N F R) : (constantProp X r).isSome := by
  simp [constantProp, cannotSubstitute_isSome]

theorem foldPropLoop_terminates [DecidableEq R] (X : Ext F) (r : Rule N F R) (fuel : Nat) (hf : weight r.body < fuel) :
    foldPropLoop X fuel r ≠ none := by
  induction fuel generalizing r with
  | zero => omega
  | succ fuel ih =>
    rw [foldPropLoop]
    split
    · simp
    · rename_i r' hr'
      split
      · simp
      · rename_i hne
        refine ih r' ?_
        obtain ⟨r1, h1, h2⟩ := Option.bind_eq_some_iff.mp hr'
        rcases constantFold_weight h1 with rfl | h <;> rcases constantProp_weight h2 with rfl | h'
        · exact absurd rfl hne
        · omega
        · omega
        · omega

/-! ## Completeness -/

/-- No literal of the body creates an entity. -/
def NoNew (b : List (Lit N F R)) : Prop := ∀ l ∈ b, l.isNew = false

omit [DecidableEq N] [DecidableEq F] in
theorem constNew_of_isNew {l : Lit N F R} (h : l.isNew = false) : l.constNew = false := by
  cases l with
  | assign x e => cases e <;> first | rfl | cases h
  | _ => rfl

omit [DecidableEq F] in
theorem foldLit_isNew {X : Ext F} {l l' : Lit N F R} (h : foldLit X l = some l') (hn : l.isNew = false) : l'.isNew = false := by
  rcases foldLit_weight h with rfl | hw
  · exact hn
  · cases l' with
    | assign x e => cases l <;> simp [Lit.weight] at hw
    | _ => rfl

omit [DecidableEq F] in
theorem mapM_forall {p : Lit N F R → Prop} {f : Lit N F R → Option (Lit N F R)} {b b' : List (Lit N F R)}
    (h : b.mapM f = some b') (hp : ∀ l ∈ b, ∀ l', f l = some l' → p l') : ∀ l' ∈ b', p l' := by
  induction b generalizing b' with
  | nil => simp at h; simp [h]
  | cons l b ih =>
    simp only [List.mapM_cons, Option.bind_eq_bind, Option.bind_eq_some_iff, Option.pure_def, Option.some.injEq] at h
    obtain ⟨l', h1, b'', h2, rfl⟩ := h
    intro m hm
    rcases List.mem_cons.mp hm with rfl | hm
    · exact hp l (by simp) _ h1
    · exact ih h2 (fun x hx => hp x (by simp [hx])) m hm

omit [DecidableEq F] in
theorem constantFold_noNew {X : Ext F} {r r' : Rule N F R} (h : constantFold X r = some r') (hn : NoNew r.body) :
    NoNew r'.body := by
  simp only [constantFold, Option.map_eq_some_iff] at h
  obtain ⟨b, h1, rfl⟩ := h
  exact mapM_forall h1 (fun l hl l' hl' => foldLit_isNew hl' (hn l hl))

theorem propLit_isNew (s : List (N × Val F)) (l : Lit N F R) (hn : l.isNew = false) : (propLit s l).isNew = false := by
  cases l with
  | assign x e => rw [propLit]; split
                  · rfl
                  · cases e <;> first | rfl | cases hn
  | _ => rfl

theorem constantProp_noNew {X : Ext F} {r r' : Rule N F R} (h : constantProp X r = some r') (hn : NoNew r.body) :
    NoNew r'.body := by
  simp only [constantProp, Option.map_eq_some_iff] at h
  obtain ⟨cannot, _, rfl⟩ := h
  split
  · intro l hl; simp only [List.mem_singleton] at hl; subst hl; rfl
  · intro l hl
    obtain ⟨m, hm, rfl⟩ := List.mem_map.mp hl
    exact propLit_isNew _ _ (hn m (List.mem_filter.mp hm).1)

theorem foldPropLoop_complete [DecidableEq R] {X : Ext F} (hX : X.ExactFloats) (hC : X.CastAgrees)
    (Red : R → List (Val F) → Prop) (fuel : Nat) {r r' : Rule N F R} (hn : NoNew r.body)
    (h : foldPropLoop X fuel r = some (some r')) (hd) (us) (hder : Derives X Red r hd us) : Derives X Red r' hd us := by
  induction fuel generalizing r with
  | zero => simp [foldPropLoop] at h
  | succ fuel ih =>
    rw [foldPropLoop] at h
    split at h
    · simp at h
    · rename_i r1 hr1
      obtain ⟨r0, h1, h2⟩ := Option.bind_eq_some_iff.mp hr1
      have hn0 := constantFold_noNew h1 hn
      have hn1 := constantProp_noNew h2 hn0
      have d0 := (constantFold_same hX hC Red (fun l hl => constNew_of_isNew (hn l hl)) h1 hd us).mp hder
      have d1 := constantProp_complete hX Red h2
        (fun x e hm hnew => by rw [hn0 _ hm] at hnew; cases hnew) hd us d0
      split at h
      · simp only [Option.some.injEq] at h; subst h; exact d1
      · exact ih hn1 h d1

/-! ## Soundness when assigned variables are not equated -/

/-- The variables that occur in the equality constraints of a body. -/
def eqVars (b : List (Lit N F R)) : List N :=
  b.flatMap (fun l => match l with | .cbin .eq s t => [s, t].filterMap Term.var? | _ => [])

/-- No conditional expressions. -/
def Lit.isIte : Lit N F R → Bool
  | .assign _ (.ite _ _ _) => true
  | _ => false

/-- Every variable is assigned at most once, assigned variables do not occur in equality constraints, and there are no conditional
expressions and no entity creation. -/
structure Plain (b : List (Lit N F R)) : Prop where
  noNew : NoNew b
  noIte : ∀ l ∈ b, l.isIte = false
  once : (lefts b).Nodup
  apart : ∀ x ∈ lefts b, x ∉ eqVars b

omit [DecidableEq N] [DecidableEq F] in
theorem lefts_cons (l : Lit N F R) (b : List (Lit N F R)) : lefts (l :: b) = lefts [l] ++ lefts b := by
  simp only [lefts, List.filterMap_cons]; split <;> simp

omit [DecidableEq N] [DecidableEq F] in
theorem eqVars_cons (l : Lit N F R) (b : List (Lit N F R)) : eqVars (l :: b) = eqVars [l] ++ eqVars b := by
  simp [eqVars]

/-- What folding one literal can do to assigned variables and equality constraints. -/
theorem foldLit_shape {X : Ext F} {l l' : Lit N F R} (h : foldLit X l = some l') (hn : l.isNew = false) (hi : l.isIte = false) :
    l' = l ∨ (lefts [l'] = [] ∧ ∀ x ∈ eqVars [l'], x ∈ lefts [l]) := by
  unfold foldLit at h
  split at h
  · rename_i x op a b
    refine .inr ?_
    cases ho : evalBin X .compile op a b <;> rw [ho] at h <;>
      simp only [foldResult, Option.some.injEq, reduceCtorEq] at h <;> subst h <;>
      simp [lefts, eqVars, Term.var?]
  · rename_i x op a
    refine .inr ?_
    cases ho : evalUn X .compile op a <;> rw [ho] at h <;>
      simp only [foldResult, Option.some.injEq, reduceCtorEq] at h <;> subst h <;>
      simp [lefts, eqVars, Term.var?]
  · cases hi
  · cases hi
  · cases hn
  · refine .inr ?_
    have := foldTest_weight h
    cases l' <;> simp [Lit.weight] at this <;> simp [lefts, eqVars]
  · obtain rfl := Option.some.inj h
    split
    · exact .inr (by simp [lefts, eqVars])
    · exact .inl rfl
  · obtain rfl := Option.some.inj h
    split
    · exact .inr (by simp [lefts, eqVars])
    · exact .inl rfl
  · refine .inr ?_
    have := foldTest_weight h
    cases l' <;> simp [Lit.weight] at this <;> simp [lefts, eqVars]
  · obtain rfl := Option.some.inj h; exact .inl rfl

theorem foldBody_plain_aux {X : Ext F} {b b' : List (Lit N F R)} (h : b.mapM (foldLit X) = some b') (hp : Plain b) :
    List.Sublist (lefts b') (lefts b) ∧ (∀ x ∈ eqVars b', x ∈ eqVars b ∨ x ∈ lefts b) ∧ (∀ x ∈ lefts b', x ∉ eqVars b') := by
  induction b generalizing b' with
  | nil => simp at h; subst h; simp [lefts, eqVars]
  | cons l b ih =>
    simp only [List.mapM_cons, Option.bind_eq_bind, Option.bind_eq_some_iff, Option.pure_def, Option.some.injEq] at h
    obtain ⟨l', h1, b'', h2, rfl⟩ := h
    obtain ⟨p1, p2, p3, p4⟩ := hp
    rw [lefts_cons] at p3
    obtain ⟨q1, q2, q3⟩ := List.nodup_append.mp p3
    have hpb : Plain b := ⟨fun m hm => p1 m (by simp [hm]), fun m hm => p2 m (by simp [hm]), q2, fun x hx => by
      have := p4 x (by rw [lefts_cons]; simp [hx])
      rw [eqVars_cons] at this
      exact fun hx' => this (by simp [hx'])⟩
    obtain ⟨i1, i2, i3⟩ := ih h2 hpb
    have happ : ∀ x ∈ lefts [l] ++ lefts b, x ∉ eqVars [l] ∧ x ∉ eqVars b := by
      intro x hx
      have := p4 x (by rw [lefts_cons]; exact hx)
      rw [eqVars_cons, List.mem_append] at this
      exact ⟨fun h => this (.inl h), fun h => this (.inr h)⟩
    rw [lefts_cons l', lefts_cons l, eqVars_cons l', eqVars_cons l]
    rcases foldLit_shape h1 (p1 l (by simp)) (p2 l (by simp)) with rfl | ⟨e1, e2⟩
    · refine ⟨List.Sublist.append_left i1 _, ?_, ?_⟩
      · intro x hx
        rcases List.mem_append.mp hx with h | h
        · exact .inl (by simp [h])
        · rcases i2 x h with h | h
          · exact .inl (by simp [h])
          · exact .inr (by simp [h])
      · intro x hx hx'
        rcases List.mem_append.mp hx with h | h <;> rcases List.mem_append.mp hx' with h' | h'
        · exact (happ x (by simp [h])).1 h'
        · rcases i2 x h' with h'' | h''
          · exact (happ x (by simp [h])).2 h''
          · exact q3 x h x h'' rfl
        · exact (happ x (by simp [i1.subset h])).1 h'
        · exact i3 x h h'
    · rw [e1]
      refine ⟨?_, ?_, ?_⟩
      · exact (List.nil_append (lefts b'')).symm ▸ (i1.trans (List.sublist_append_right _ _))
      · intro x hx
        rcases List.mem_append.mp hx with h | h
        · exact .inr (by simp [e2 x h])
        · rcases i2 x h with h | h
          · exact .inl (by simp [h])
          · exact .inr (by simp [h])
      · intro x hx hx'
        rw [List.nil_append] at hx
        rcases List.mem_append.mp hx' with h' | h'
        · exact q3 x (e2 x h') x (i1.subset hx) rfl
        · exact i3 x hx h'

theorem constantFold_plain {X : Ext F} {r r' : Rule N F R} (h : constantFold X r = some r') (hp : Plain r.body) :
    Plain r'.body := by
  have hn := constantFold_noNew h hp.noNew
  simp only [constantFold, Option.map_eq_some_iff] at h
  obtain ⟨b, h1, rfl⟩ := h
  obtain ⟨i1, i2, i3⟩ := foldBody_plain_aux h1 hp
  refine ⟨hn, ?_, hp.once.sublist i1, i3⟩
  refine mapM_forall h1 (fun l hl l' hl' => ?_)
  rcases foldLit_weight hl' with rfl | hw
  · exact hp.noIte _ hl
  · cases l' with
    | assign x e => cases l <;> simp [Lit.weight] at hw
    | _ => rfl

theorem propLit_shape (s : List (N × Val F)) (l : Lit N F R) :
    List.Sublist (lefts [propLit s l]) (lefts [l]) ∧ (∀ x ∈ eqVars [propLit s l], x ∈ eqVars [l]) ∧
      (l.isIte = false → (propLit s l).isIte = false) := by
  have hv : ∀ (t : Term N F) x, (substConst s t).var? = some x → t.var? = some x := by
    intro t x hx
    cases t with
    | const c => exact hx
    | var v =>
      simp only [substConst] at hx
      split at hx
      · cases hx
      · exact hx
  cases l with
  | assign x e =>
    rw [propLit]
    split
    · simp [lefts, eqVars, Lit.isIte]
    · refine ⟨by simp [lefts], by simp [eqVars], ?_⟩
      cases e <;> simp [Lit.isIte, AExpr.map]
  | cbin op a b =>
    refine ⟨by simp [lefts, propLit], ?_, fun _ => rfl⟩
    cases op <;> simp only [propLit, eqVars, List.flatMap_cons, List.flatMap_nil, List.append_nil, List.mem_filterMap,
      List.not_mem_nil, false_imp_iff, implies_true, List.mem_cons, or_false, exists_eq_or_imp, exists_eq_left]
    rintro x (h | h)
    · exact .inl (hv _ _ h)
    · exact .inr (hv _ _ h)
  | _ => exact ⟨by simp [lefts, propLit], by simp [eqVars, propLit], fun _ => rfl⟩

theorem filter_map_shape (p : Lit N F R → Bool) (s : List (N × Val F)) (b : List (Lit N F R)) :
    List.Sublist (lefts ((b.filter p).map (propLit s))) (lefts b) ∧
      (∀ x ∈ eqVars ((b.filter p).map (propLit s)), x ∈ eqVars b) := by
  induction b with
  | nil => simp
  | cons l b ih =>
    obtain ⟨i1, i2⟩ := ih
    obtain ⟨j1, j2, _⟩ := propLit_shape s l
    rw [List.filter_cons]
    split
    · rw [List.map_cons, lefts_cons, lefts_cons l, eqVars_cons, eqVars_cons l]
      refine ⟨j1.append i1, fun x hx => ?_⟩
      rcases List.mem_append.mp hx with h | h
      · exact List.mem_append.mpr (.inl (j2 x h))
      · exact List.mem_append.mpr (.inr (i2 x h))
    · rw [lefts_cons l, eqVars_cons l]
      exact ⟨i1.trans (List.sublist_append_right _ _), fun x hx => List.mem_append.mpr (.inr (i2 x hx))⟩

theorem constantProp_plain {X : Ext F} {r r' : Rule N F R} (h : constantProp X r = some r') (hp : Plain r.body) :
    Plain r'.body := by
  have hn := constantProp_noNew h hp.noNew
  simp only [constantProp, Option.map_eq_some_iff] at h
  obtain ⟨cannot, _, rfl⟩ := h
  by_cases hf : (collectConst X cannot r.body).2 = true
  · simp only [hf, if_true]
    exact ⟨by intro l hl; simp only [List.mem_singleton] at hl; subst hl; rfl,
      by intro l hl; simp only [List.mem_singleton] at hl; subst hl; rfl, by simp [lefts], by simp [lefts]⟩
  · have hf' : (collectConst X cannot r.body).2 = false := by simpa using hf
    simp only [hf', Bool.false_eq_true, if_false] at hn ⊢
    obtain ⟨i1, i2⟩ := filter_map_shape (fun l => (constEq? cannot l).isNone) (collectConst X cannot r.body).1 r.body
    refine ⟨hn, ?_, hp.once.sublist i1, fun x hx hx' => hp.apart x (i1.subset hx) (i2 x hx')⟩
    intro l hl
    obtain ⟨m, hm, rfl⟩ := List.mem_map.mp hl
    exact (propLit_shape _ m).2.2 (hp.noIte m (List.mem_filter.mp hm).1)

omit [DecidableEq N] [DecidableEq F] in
theorem plain_no_const {b : List (Lit N F R)} (hp : Plain b) (x : N) (e : AExpr N F) (hx : Lit.assign x e ∈ b) (c : Val F) :
    Lit.cbin .eq (.var x) (.const c) ∉ b ∧ Lit.cbin .eq (.const c) (.var x) ∉ b := by
  have hl : x ∈ lefts b := by
    simp only [lefts, List.mem_filterMap]; exact ⟨_, hx, rfl⟩
  have := hp.apart x hl
  constructor <;>
  · intro hm
    refine this ?_
    simp only [eqVars, List.mem_flatMap]
    exact ⟨_, hm, by simp [Term.var?]⟩

theorem foldPropLoop_same [DecidableEq R] {X : Ext F} (hX : X.ExactFloats) (hC : X.CastAgrees)
    (Red : R → List (Val F) → Prop) (fuel : Nat) {r r' : Rule N F R} (hp : Plain r.body)
    (h : foldPropLoop X fuel r = some (some r')) : SameDerivations X Red r r' := by
  induction fuel generalizing r with
  | zero => simp [foldPropLoop] at h
  | succ fuel ih =>
    rw [foldPropLoop] at h
    split at h
    · simp at h
    · rename_i r1 hr1
      obtain ⟨r0, h1, h2⟩ := Option.bind_eq_some_iff.mp hr1
      have hp0 := constantFold_plain h1 hp
      have hp1 := constantProp_plain h2 hp0
      have d0 := constantFold_same hX hC Red (fun l hl => constNew_of_isNew (hp.noNew l hl)) h1
      have d1 : SameDerivations X Red r0 r1 := fun hd us =>
        ⟨constantProp_complete hX Red h2 (fun x e hm hnew => by rw [hp0.noNew _ hm] at hnew; cases hnew) hd us,
          constantProp_sound hX Red h2 (fun x e hm c => plain_no_const hp0 x e hm c) hd us⟩
      have d : SameDerivations X Red r r1 := fun hd us => (d0 hd us).trans (d1 hd us)
      split at h
      · simp only [Option.some.injEq] at h; subst h; exact d
      · exact fun hd us => (d hd us).trans (ih hp1 h hd us)

end

/-! ## True and false literals, empty rules -/

theorem removeTrue_same (X : Ext F) (Red : R → List (Val F) → Prop) (r : Rule N F R) : SameDerivations X Red r (removeTrue r) := by
  intro hd us
  have h1 : ∀ σ : N → Val F, (∀ l ∈ (removeTrue r).body, l.Holds X Red σ) ↔ (∀ l ∈ r.body, l.Holds X Red σ) := by
    intro σ
    simp only [removeTrue, List.mem_filter]
    refine ⟨fun h l hl => ?_, fun h l hl => h l hl.1⟩
    cases l with
    | tt => trivial
    | _ => exact h _ ⟨hl, rfl⟩
  have h2 : ∀ σ : N → Val F, (removeTrue r).body.flatMap (Lit.uses σ) = r.body.flatMap (Lit.uses σ) := by
    intro σ
    have := flatMap_filter_map (fun l : Lit N F R => !l.isTrue) id (Lit.uses σ) (Lit.uses σ) r.body
      (fun _ _ _ => rfl) (fun l _ h => by cases l <;> first | rfl | cases h)
    simpa [removeTrue] using this
  simp only [Derives, h1, h2]
  rfl

theorem removed_no_derivation (X : Ext F) (Red : R → List (Val F) → Prop) (rs : List (Rule N F R)) (r : Rule N F R)
    (hr : r ∈ rs) (hn : r ∉ removeFalseRules rs) (hd) (us) : ¬ Derives X Red r hd us := by
  rintro ⟨σ, h, _⟩
  apply hn
  simp only [removeFalseRules, List.mem_filter]
  refine ⟨hr, ?_⟩
  simp only [Bool.not_eq_true', List.any_eq_false]
  intro l hl
  cases l with
  | ff => exact absurd (h .ff hl) (by simp [Lit.Holds])
  | _ => simp [Lit.isFalse]

theorem emptyRuleToFact_spec (rs rs' : List (Rule N F R)) (fs : List (String × List (Val F)))
    (h : emptyRuleToFact rs = some (rs', fs)) (X : Ext F) (Red : R → List (Val F) → Prop)
    (hd : Bool × List (String × List (Val F))) (us : List (Use F)) [Nonempty (Val F)] :
    (∃ r ∈ rs, Derives X Red r hd us) ↔
      ((∃ r ∈ rs', Derives X Red r hd us) ∨ ∃ f ∈ fs, hd = (false, [f]) ∧ us = []) := by
  induction rs generalizing rs' fs with
  | nil =>
    simp only [emptyRuleToFact, Option.some.injEq, Prod.mk.injEq] at h
    obtain ⟨rfl, rfl⟩ := h
    simp
  | cons r rs ih =>
    rw [emptyRuleToFact] at h
    obtain ⟨⟨p1, p2⟩, hp, h⟩ := Option.bind_eq_some_iff.mp h
    have ih' := ih p1 p2 hp
    have hex : (∃ r0 ∈ r :: rs, Derives X Red r0 hd us) ↔ Derives X Red r hd us ∨ ∃ r0 ∈ rs, Derives X Red r0 hd us := by
      simp
    rw [hex, ih']
    obtain ⟨hdr, body⟩ := r
    have keep : (rs', fs) = ((⟨hdr, body⟩ : Rule N F R) :: p1, p2) →
        ((Derives X Red ⟨hdr, body⟩ hd us ∨ (∃ r ∈ p1, Derives X Red r hd us) ∨ ∃ f ∈ p2, hd = (false, [f]) ∧ us = []) ↔
          ((∃ r ∈ rs', Derives X Red r hd us) ∨ ∃ f ∈ fs, hd = (false, [f]) ∧ us = [])) := by
      intro e
      simp only [Prod.mk.injEq] at e
      obtain ⟨rfl, rfl⟩ := e
      simp only [List.mem_cons, exists_eq_or_imp, or_assoc]
    cases body with
    | cons l b => exact keep (Option.some.inj h).symm
    | nil =>
      cases hdr with
      | disj as => exact keep (Option.some.inj h).symm
      | atom a =>
        obtain ⟨cs, hcs, e⟩ := Option.map_eq_some_iff.mp h
        simp only [Prod.mk.injEq] at e
        obtain ⟨rfl, rfl⟩ := e
        have hder : Derives X Red (⟨.atom a, []⟩ : Rule N F R) hd us ↔ hd = (false, [(a.predicate, cs)]) ∧ us = [] := by
          constructor
          · rintro ⟨σ, _, h1, h2⟩
            refine ⟨?_, by simpa using h2.symm⟩
            rw [← h1]
            simp [Head.inst, Atom.inst, mapM_const_val hcs σ]
          · rintro ⟨rfl, rfl⟩
            refine ⟨fun _ => Classical.arbitrary _, by simp, ?_, rfl⟩
            simp [Head.inst, Atom.inst, mapM_const_val hcs]
        rw [hder]
        simp only [List.mem_cons, exists_eq_or_imp]
        generalize (∃ r ∈ p1, Derives X Red r hd us) = A
        generalize (∃ f ∈ p2, hd = (false, [f]) ∧ us = []) = B
        constructor
        · rintro (h | h | h)
          · exact .inr (.inl h)
          · exact .inl h
          · exact .inr (.inr h)
        · rintro (h | h | h)
          · exact .inr (.inl h)
          · exact .inl h
          · exact .inr (.inr h)

end Scallop.Back
