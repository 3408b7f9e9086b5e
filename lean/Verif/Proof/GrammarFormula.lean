import Verif.Spec.Grammar

/-!
# A deterministic reading of formulas
-/

namespace Scallop.Syn

/-- What is being read. -/
inductive FQ
  | unit | ann | conjL | conj | disjL | disj | commaL | formula

/-- `FP q ts o b r`: reading `q` from `ts` gives `o` and leaves `r`; `b` tells whether more than a unit, or more
than an empty list, was read. -/
inductive FP : FQ → List FTok → FOut → Bool → List FTok → Prop
  | atom {a r} : FP .unit (.atom a :: r) (.one (.atom a)) false r
  | other {f r} : FP .unit (.other f :: r) (.one (.other f)) false r
  | paren {r o r'} : FP .formula r o true (.rpar :: r') → FP .unit (.lpar :: r) o false r'
  | neg {a r} : FP .ann (.not :: .atom a :: r) (.one (.neg a)) true r
  | annOf {ts o r} : FP .unit ts o false r → FP .ann ts o false r
  | conjStop {r} : r.head? ≠ some .and → FP .conjL r (.many []) false r
  | conjStep {r f b r' fs b' r''} : FP .ann r (.one f) b r' → FP .conjL r' (.many fs) b' r'' →
      FP .conjL (.and :: r) (.many (f :: fs)) true r''
  | conj {ts f b r fs b' r'} : FP .ann ts (.one f) b r → FP .conjL r (.many fs) b' r' →
      FP .conj ts (.one (several .conj (f :: fs))) (b || b') r'
  | disjStop {r} : r.head? ≠ some .or → FP .disjL r (.many []) false r
  | disjStep {r f b r' fs b' r''} : FP .conj r (.one f) b r' → FP .disjL r' (.many fs) b' r'' →
      FP .disjL (.or :: r) (.many (f :: fs)) true r''
  | disj {ts f b r fs b' r'} : FP .conj ts (.one f) b r → FP .disjL r (.many fs) b' r' →
      FP .disj ts (.one (several .disj (f :: fs))) (b || b') r'
  | commaStop {r} : r.head? ≠ some .comma → FP .commaL r (.many []) false r
  | commaStep {r f b r' fs b' r''} : FP .ann r (.one f) b r' → FP .commaL r' (.many fs) b' r'' →
      FP .commaL (.comma :: r) (.many (f :: fs)) true r''
  | fComma {ts f b r fs r'} : FP .ann ts (.one f) b r → FP .commaL r (.many fs) true r' →
      FP .formula ts (.one (.conj (f :: fs))) true r'
  | fImplies {ts a b r c b' r'} : FP .disj ts (.one a) b (.implies :: r) → FP .disj r (.one c) b' r' →
      FP .formula ts (.one (.implies a c)) true r'
  | fOf {ts o b r} : FP .disj ts o b r → r.head? ≠ some .implies → r.head? ≠ some .comma → FP .formula ts o b r

/-- A formula followed by a comma, as a disjunction. -/
theorem FP.up {ts : List FTok} {f : Fml} {b : Bool} {r : List FTok} (h : FP .ann ts (.one f) b (.comma :: r)) :
    FP .disj ts (.one f) b (.comma :: r) := by
  have := FP.disj (FP.conj h (.conjStop (by simp))) (.disjStop (by simp))
  simpa [several] using this

theorem FP.comma_head {r : List FTok} {o : FOut} {r' : List FTok} (h : FP .commaL r o true r') :
    ∃ t, r = .comma :: t := by
  cases h with
  | commaStep _ _ => exact ⟨_, rfl⟩

/-- Reading is deterministic. -/
theorem FP.det {q : FQ} {ts : List FTok} {o o' : FOut} {b b' : Bool} {r r' : List FTok}
    (h : FP q ts o b r) (h' : FP q ts o' b' r') : o = o' ∧ b = b' ∧ r = r' := by
  induction h generalizing o' b' r' with
  | atom => cases h'; simp
  | other => cases h'; simp
  | paren _ ih => cases h' with | paren h => have := ih h; simp_all
  | neg =>
    cases h' with
    | neg => simp
    | annOf h => cases h
  | annOf hp ih =>
    cases h' with
    | neg => cases hp
    | annOf h => exact ih h
  | conjStop n =>
    cases h' with
    | conjStop _ => simp
    | conjStep _ _ => simp at n
  | conjStep _ _ ih1 ih2 =>
    cases h' with
    | conjStop n => simp at n
    | conjStep h1 h2 =>
      obtain ⟨e1, e2, e3⟩ := ih1 h1
      cases e1; subst e3
      obtain ⟨e1, e2, e3⟩ := ih2 h2
      cases e1; subst e3
      simp
  | conj _ _ ih1 ih2 =>
    cases h' with
    | conj h1 h2 =>
      obtain ⟨e1, e2, e3⟩ := ih1 h1
      cases e1; subst e2; subst e3
      obtain ⟨e1, e2, e3⟩ := ih2 h2
      cases e1; subst e2; subst e3
      simp
  | disjStop n =>
    cases h' with
    | disjStop _ => simp
    | disjStep _ _ => simp at n
  | disjStep _ _ ih1 ih2 =>
    cases h' with
    | disjStop n => simp at n
    | disjStep h1 h2 =>
      obtain ⟨e1, e2, e3⟩ := ih1 h1
      cases e1; subst e3
      obtain ⟨e1, e2, e3⟩ := ih2 h2
      cases e1; subst e3
      simp
  | disj _ _ ih1 ih2 =>
    cases h' with
    | disj h1 h2 =>
      obtain ⟨e1, e2, e3⟩ := ih1 h1
      cases e1; subst e2; subst e3
      obtain ⟨e1, e2, e3⟩ := ih2 h2
      cases e1; subst e2; subst e3
      simp
  | commaStop n =>
    cases h' with
    | commaStop _ => simp
    | commaStep _ _ => simp at n
  | commaStep _ _ ih1 ih2 =>
    cases h' with
    | commaStop n => simp at n
    | commaStep h1 h2 =>
      obtain ⟨e1, e2, e3⟩ := ih1 h1
      cases e1; subst e3
      obtain ⟨e1, e2, e3⟩ := ih2 h2
      cases e1; subst e3
      simp
  | @fComma ts0 _ _ _ _ _ _ h2' ih1 ih2 =>
    have aux : ∀ {o b r}, FP .disj ts0 o b r → ∃ t, r = .comma :: t := by
      intro o b r h
      obtain ⟨t, ht⟩ := h2'.comma_head
      subst ht
      cases h with
      | disj hc hd =>
        cases hc with
        | conj ha hl =>
          obtain ⟨-, -, e3⟩ := ih1 ha
          subst e3
          generalize hx : FTok.comma :: t = x at hl
          cases hl with
          | conjStep => simp at hx
          | conjStop =>
            subst hx
            generalize hx : FTok.comma :: t = x at hd
            cases hd with
            | disjStep => simp at hx
            | disjStop => exact ⟨t, hx.symm⟩
    cases h' with
    | fComma h1 h2 =>
      obtain ⟨e1, e2, e3⟩ := ih1 h1
      cases e1; subst e3
      obtain ⟨e1, e2, e3⟩ := ih2 h2
      cases e1; subst e3
      simp
    | fImplies h1 _ => obtain ⟨t, ht⟩ := aux h1; simp at ht
    | fOf h1 _ n => obtain ⟨t, ht⟩ := aux h1; subst ht; simp at n
  | fImplies _ _ ih1 ih2 =>
    cases h' with
    | fComma h1 h2 =>
      obtain ⟨t, rfl⟩ := h2.comma_head
      have := (ih1 h1.up).2.2
      simp at this
    | fImplies h1 h2 =>
      obtain ⟨e1, e2, e3⟩ := ih1 h1
      cases e1; cases e3
      obtain ⟨e1, e2, e3⟩ := ih2 h2
      cases e1; subst e3
      simp
    | fOf h1 n _ =>
      have := (ih1 h1).2.2
      subst this
      simp at n
  | fOf _ n n' ih =>
    cases h' with
    | fComma h1 h2 =>
      obtain ⟨t, rfl⟩ := h2.comma_head
      have := (ih h1.up).2.2
      subst this
      simp at n'
    | fImplies h1 h2 =>
      have := (ih h1).2.2
      subst this
      simp at n
    | fOf h1 _ _ => exact ih h1

/-- The rest does not continue a formula. -/
def FEnds (r : List FTok) : Prop :=
  r.head? ≠ some .comma ∧ r.head? ≠ some .implies ∧ r.head? ≠ some .or ∧ r.head? ≠ some .and

/-- The deterministic reader follows a derivation. -/
def FFollows : FNT → List FTok → FOut → Prop
  | .unit, ts, o => (∃ f, o = .one f) ∧ ∀ rest, FP .unit (ts ++ rest) o false rest
  | .negB, ts, o => (∃ f, o = .one f) ∧ ∀ rest, FP .ann (ts ++ rest) o true rest
  | .annotated, ts, o => (∃ f, o = .one f) ∧ ∃ b, ∀ rest, FP .ann (ts ++ rest) o b rest
  | .conjList, ts, o => (∃ t, ts = .and :: t) ∧ ∀ rest, rest.head? ≠ some .and → FP .conjL (ts ++ rest) o true rest
  | .conjB, ts, o => (∃ f, o = .one f) ∧ ∀ rest, rest.head? ≠ some .and → FP .conj (ts ++ rest) o true rest
  | .conj, ts, o => (∃ f, o = .one f) ∧ ∃ b, ∀ rest, rest.head? ≠ some .and → FP .conj (ts ++ rest) o b rest
  | .disjList, ts, o => (∃ t, ts = .or :: t) ∧ ∀ rest, rest.head? ≠ some .and → rest.head? ≠ some .or →
      FP .disjL (ts ++ rest) o true rest
  | .disjB, ts, o => (∃ f, o = .one f) ∧ ∀ rest, rest.head? ≠ some .and → rest.head? ≠ some .or →
      FP .disj (ts ++ rest) o true rest
  | .disj, ts, o => (∃ f, o = .one f) ∧ ∃ b, ∀ rest, rest.head? ≠ some .and → rest.head? ≠ some .or →
      FP .disj (ts ++ rest) o b rest
  | .commaList, ts, o => ∀ rest, rest.head? ≠ some .comma → FP .commaL (ts ++ rest) o true rest
  | .comma, ts, o => ∀ rest, FEnds rest → FP .formula (ts ++ rest) o true rest
  | .impliesB, ts, o => ∀ rest, FEnds rest → FP .formula (ts ++ rest) o true rest
  | .implies, ts, o => ∃ b, ∀ rest, FEnds rest → FP .formula (ts ++ rest) o b rest
  | .formula, ts, o => ∃ b, ∀ rest, FEnds rest → FP .formula (ts ++ rest) o b rest
  | .complex, ts, o => ∀ rest, FEnds rest → FP .formula (ts ++ rest) o true rest

theorem conj_follows {t ts : List FTok} {f : Fml} {fs : List Fml} (ih1 : FFollows .annotated t (.one f))
    (ih2 : FFollows .conjList ts (.many fs)) (hne : fs ≠ []) : FFollows .conjB (t ++ ts) (.one (.conj (f :: fs))) := by
  obtain ⟨-, b, g⟩ := ih1
  obtain ⟨-, k⟩ := ih2
  refine ⟨⟨_, rfl⟩, fun rest h => ?_⟩
  rw [List.append_assoc]
  have := FP.conj (g _) (k _ h)
  cases fs with
  | nil => exact absurd rfl hne
  | cons f' fs => simpa [several] using this

theorem disj_follows {t ts : List FTok} {f : Fml} {fs : List Fml} (ih1 : FFollows .conj t (.one f))
    (ih2 : FFollows .disjList ts (.many fs)) (hne : fs ≠ []) : FFollows .disjB (t ++ ts) (.one (.disj (f :: fs))) := by
  obtain ⟨-, b, g⟩ := ih1
  obtain ⟨⟨u, hu⟩, k⟩ := ih2
  refine ⟨⟨_, rfl⟩, fun rest h h' => ?_⟩
  rw [List.append_assoc]
  have := FP.disj (g _ (by rw [hu]; simp)) (k _ h h')
  cases fs with
  | nil => exact absurd rfl hne
  | cons f' fs => simpa [several] using this

theorem FD.list_ne {n : FNT} {ts : List FTok} {o : FOut} (h : FD n ts o) {fs : List Fml} (ho : o = .many fs) :
    fs ≠ [] := by
  induction h <;> simp_all <;> (subst ho; simp)

/-- A conjunction as a whole formula. -/
theorem conj_formula {t : List FTok} {o : FOut} {b : Bool} (ho : ∃ f, o = .one f)
    (h : ∀ rest, rest.head? ≠ some .and → FP .conj (t ++ rest) o b rest) (rest : List FTok) (e : FEnds rest) :
    FP .formula (t ++ rest) o b rest := by
  obtain ⟨f, rfl⟩ := ho
  have := FP.disj (h rest e.2.2.2) (.disjStop e.2.2.1)
  exact .fOf (by simpa [several] using this) e.2.1 e.1

theorem ann_formula {t : List FTok} {o : FOut} {b : Bool} (ho : ∃ f, o = .one f)
    (h : ∀ rest, FP .ann (t ++ rest) o b rest) (rest : List FTok) (e : FEnds rest) :
    FP .formula (t ++ rest) o b rest := by
  refine conj_formula ho (fun rest n => ?_) rest e
  obtain ⟨f, rfl⟩ := ho
  have := FP.conj (h rest) (.conjStop n)
  simpa [several] using this

theorem FD.follows {n : FNT} {ts : List FTok} {o : FOut} (h : FD n ts o) : FFollows n ts o := by
  induction h with
  | formulaComma _ ih => exact ⟨true, ih⟩
  | formulaOf _ ih => exact ih
  | comma _ _ ih1 ih2 =>
    obtain ⟨-, b, g⟩ := ih1
    intro rest e
    rw [List.append_assoc]
    exact .fComma (g _) (ih2 _ e.1)
  | commaLast _ ih =>
    obtain ⟨-, b, g⟩ := ih
    intro rest n
    exact .commaStep (g _) (.commaStop n)
  | commaMore _ _ ih1 ih2 =>
    obtain ⟨-, b, g⟩ := ih1
    intro rest n
    rw [List.append_assoc]
    exact .commaStep (g _) (ih2 _ n)
  | implies _ _ ih1 ih2 =>
    obtain ⟨-, b, g⟩ := ih1
    obtain ⟨-, b', k⟩ := ih2
    intro rest e
    rw [List.append_assoc]
    exact .fImplies (g _ (by simp) (by simp)) (k _ e.2.2.2 e.2.2.1)
  | impliesOfB _ ih => exact ⟨true, ih⟩
  | impliesOf _ ih =>
    obtain ⟨-, b, g⟩ := ih
    exact ⟨b, fun rest e => .fOf (g _ e.2.2.2 e.2.2.1) e.2.1 e.1⟩
  | disj _ h2 ih1 ih2 => exact disj_follows ih1 ih2 (h2.list_ne rfl)
  | disjLast _ ih =>
    obtain ⟨-, b, g⟩ := ih
    exact ⟨⟨_, rfl⟩, fun rest n n' => .disjStep (g _ n) (.disjStop n')⟩
  | disjMore _ _ ih1 ih2 =>
    obtain ⟨-, b, g⟩ := ih1
    obtain ⟨⟨u, hu⟩, k⟩ := ih2
    refine ⟨⟨_, rfl⟩, fun rest n n' => ?_⟩
    rw [List.append_assoc]
    exact .disjStep (g _ (by rw [hu]; simp)) (k _ n n')
  | disjOfB _ ih => exact ⟨ih.1, true, ih.2⟩
  | disjOf _ ih =>
    obtain ⟨⟨f, rfl⟩, b, g⟩ := ih
    refine ⟨⟨f, rfl⟩, b, fun rest n n' => ?_⟩
    have := FP.disj (g _ n) (.disjStop n')
    simpa [several] using this
  | conj _ h2 ih1 ih2 => exact conj_follows ih1 ih2 (h2.list_ne rfl)
  | conjLast _ ih =>
    obtain ⟨-, b, g⟩ := ih
    exact ⟨⟨_, rfl⟩, fun rest n => .conjStep (g _) (.conjStop n)⟩
  | conjMore _ _ ih1 ih2 =>
    obtain ⟨-, b, g⟩ := ih1
    refine ⟨⟨_, rfl⟩, fun rest n => ?_⟩
    rw [List.append_assoc]
    exact .conjStep (g _) (ih2.2 _ n)
  | conjOfB _ ih => exact ⟨ih.1, true, ih.2⟩
  | conjOf _ ih =>
    obtain ⟨⟨f, rfl⟩, b, g⟩ := ih
    refine ⟨⟨f, rfl⟩, b, fun rest n => ?_⟩
    have := FP.conj (g _) (.conjStop n)
    simpa [several] using this
  | neg => exact ⟨⟨_, rfl⟩, fun rest => .neg⟩
  | annotatedNeg _ ih => exact ⟨ih.1, true, ih.2⟩
  | annotatedOf _ ih => exact ⟨ih.1, false, fun rest => .annOf (ih.2 rest)⟩
  | complexComma _ ih => exact ih
  | complexImplies _ ih => exact ih
  | complexDisj _ ih => exact fun rest e => .fOf (ih.2 _ e.2.2.2 e.2.2.1) e.2.1 e.1
  | complexConj _ ih => exact conj_formula ih.1 ih.2
  | complexNeg _ ih => exact ann_formula ih.1 ih.2
  | paren h ih =>
    refine ⟨?_, fun rest => ?_⟩
    · have : ∀ {n ts o}, FD n ts o → n ≠ .commaList → n ≠ .conjList → n ≠ .disjList → ∃ f, o = .one f := by
        intro n ts o h; induction h <;> simp_all
      exact this h (by simp) (by simp) (by simp)
    · simp only [List.append_assoc, List.cons_append, List.nil_append]
      exact .paren (ih _ (by simp [FEnds]))
  | atom => exact ⟨⟨_, rfl⟩, fun rest => .atom⟩
  | other => exact ⟨⟨_, rfl⟩, fun rest => .other⟩

/-- A whole formula is followed by the deterministic reader. -/
theorem FReads.follows {ts : List FTok} {f : Fml} (h : FReads ts f) : ∃ b, FP .formula ts (.one f) b [] := by
  obtain ⟨b, g⟩ := FD.follows h
  have := g [] (by simp [FEnds])
  rw [List.append_nil] at this
  exact ⟨b, this⟩

theorem FReads.unique {ts : List FTok} {f g : Fml} (h : FReads ts f) (h' : FReads ts g) : f = g := by
  obtain ⟨b, h⟩ := h.follows
  obtain ⟨b', h'⟩ := h'.follows
  have := (h.det h').1
  cases this
  rfl

/-! ### Disjunctions of conjunctions -/

theorem andList (y : FOperand) (c : List FOperand) (h : ∀ x ∈ y :: c, IsFOperand x) :
    FD .conjList (.and :: joined .and ((y :: c).map (·.1))) (.many ((y :: c).map (·.2))) := by
  induction c generalizing y with
  | nil => simpa [joined] using FD.conjLast (h y (by simp))
  | cons z c ih =>
    have := FD.conjMore (h y (by simp)) (ih z (fun x hx => h x (by simp at hx; simp [hx])))
    simpa [joined] using this

theorem conj_reads (c : List FOperand) (hc : c ≠ []) (h : ∀ x ∈ c, IsFOperand x) :
    FD .conj (joined .and (c.map (·.1))) (.one (several .conj (c.map (·.2)))) := by
  match c, hc with
  | [x], _ => simpa [joined, several] using FD.conjOf (h x (by simp))
  | x :: y :: c, _ =>
    have := FD.conjOfB (.conj (h x (by simp)) (andList y c (fun z hz => h z (by simp at hz; simp [hz]))))
    simpa [joined, several] using this

theorem orList (y : List FOperand) (c : List (List FOperand)) (h : ∀ d ∈ y :: c, d ≠ [] ∧ ∀ x ∈ d, IsFOperand x) :
    FD .disjList (.or :: dnfTokens (y :: c)) (.many ((y :: c).map fun d => several .conj (d.map (·.2)))) := by
  induction c generalizing y with
  | nil =>
    have hy := h y (by simp)
    simpa [dnfTokens, joined] using FD.disjLast (conj_reads y hy.1 hy.2)
  | cons z c ih =>
    have hy := h y (by simp)
    have := FD.disjMore (conj_reads y hy.1 hy.2) (ih z (fun x hx => h x (by simp at hx; simp [hx])))
    simpa [dnfTokens, joined] using this

theorem dnf_disj (ds : List (List FOperand)) (h : IsDnf ds) : FD .disj (dnfTokens ds) (.one (dnfMeaning ds)) := by
  match ds, h with
  | [c], h =>
    have hc := h.2 c (by simp)
    simpa [dnfTokens, dnfMeaning, joined, several] using FD.disjOf (conj_reads c hc.1 hc.2)
  | c :: d :: ds, h =>
    have hc := h.2 c (by simp)
    have := FD.disjOfB (.disj (conj_reads c hc.1 hc.2) (orList d ds (fun z hz => h.2 z (by simp at hz; simp [hz]))))
    simpa [dnfTokens, dnfMeaning, joined, several] using this
  | [], h => exact absurd rfl h.1

theorem commaList (y : FOperand) (c : List FOperand) (h : ∀ x ∈ y :: c, IsFOperand x) :
    FD .commaList (.comma :: joined .comma ((y :: c).map (·.1))) (.many ((y :: c).map (·.2))) := by
  induction c generalizing y with
  | nil => simpa [joined] using FD.commaLast (h y (by simp))
  | cons z c ih =>
    have := FD.commaMore (h y (by simp)) (ih z (fun x hx => h x (by simp at hx; simp [hx])))
    simpa [joined] using this

theorem comma_reads (c : List FOperand) (hc : c ≠ []) (h : ∀ x ∈ c, IsFOperand x) :
    FReads (joined .comma (c.map (·.1))) (several .conj (c.map (·.2))) := by
  match c, hc with
  | [x], _ =>
    have := FD.formulaOf (.impliesOf (.disjOf (.conjOf (h x (by simp)))))
    simpa [joined, several, FReads] using this
  | x :: y :: c, _ =>
    have := FD.formulaComma (.comma (h x (by simp)) (commaList y c (fun z hz => h z (by simp at hz; simp [hz]))))
    simpa [joined, several, FReads] using this

/-! ### Written formulas -/

mutual
theorem fwritten_ann : ∀ f : Fml, Proper f → FD .annotated (fwritten f) (.one f)
  | .atom _, _ => .annotatedOf .atom
  | .neg _, _ => .annotatedNeg .neg
  | .other _, _ => .annotatedOf .other
  | .conj fs, h => by
    simp only [Proper] at h
    match fs, h with
    | f :: g :: fs, h =>
      have := FD.annotatedOf (.paren (.complexConj (.conj (fwritten_ann f h.2.1) (fwritten_and (g :: fs) (by simp) h.2.2))))
      simpa [fwritten, fwrittenList] using this
    | [_], h => simp at h
    | [], h => simp at h
  | .disj fs, h => by
    simp only [Proper] at h
    match fs, h with
    | f :: g :: fs, h =>
      have := FD.annotatedOf (.paren (.complexDisj (.disj (.conjOf (fwritten_ann f h.2.1))
        (fwritten_or (g :: fs) (by simp) h.2.2))))
      simpa [fwritten, fwrittenList] using this
    | [_], h => simp at h
    | [], h => simp at h
  | .implies l r, h => by
    have := FD.annotatedOf (.paren (.complexImplies (.implies (.disjOf (.conjOf (fwritten_ann l h.1)))
      (.disjOf (.conjOf (fwritten_ann r h.2))))))
    simpa [fwritten] using this

theorem fwritten_and : ∀ fs : List Fml, fs ≠ [] → ProperAll fs → FD .conjList (.and :: fwrittenList .and fs) (.many fs)
  | [], h, _ => absurd rfl h
  | [f], _, h => by simpa [fwrittenList] using FD.conjLast (fwritten_ann f h.1)
  | f :: g :: fs, _, h => by
    have := FD.conjMore (fwritten_ann f h.1) (fwritten_and (g :: fs) (by simp) h.2)
    simpa [fwrittenList] using this

theorem fwritten_or : ∀ fs : List Fml, fs ≠ [] → ProperAll fs → FD .disjList (.or :: fwrittenList .or fs) (.many fs)
  | [], h, _ => absurd rfl h
  | [f], _, h => by simpa [fwrittenList] using FD.disjLast (.conjOf (fwritten_ann f h.1))
  | f :: g :: fs, _, h => by
    have := FD.disjMore (.conjOf (fwritten_ann f h.1)) (fwritten_or (g :: fs) (by simp) h.2)
    simpa [fwrittenList] using this
end

end Scallop.Syn
