import Verif.Spec.Expr

namespace Scallop

variable {F L O₁ O₂ T : Type}

theorem atPath_append {V : Type} (t : Tup V) (a b : List Nat) : t.atPath (a ++ b) = (t.atPath a).bind (fun u => u.atPath b) := by
  induction a generalizing t with
  | nil => simp [Tup.atPath]
  | cons i a ih =>
    simp only [List.cons_append, Tup.atPath]
    cases t.at? i with
    | none => rfl
    | some u => simp [ih]

theorem joinAccessor_some {a b r : List Nat} (h : joinAccessor a b = some r) : r = a ++ b := by
  unfold joinAccessor at h
  split at h
  · exact (Option.some.inj h).symm
  · cases h

mutual
theorem composeAccess_nil : ∀ (e e' : Expr F), e.composeAccess [] = some e' → e' = e
  | .const c, e', h => by simpa [Expr.composeAccess, eq_comm] using h
  | .access a, e', h => by
    simp only [Expr.composeAccess, Option.map_eq_some_iff] at h
    obtain ⟨r, hr, rfl⟩ := h
    rw [joinAccessor_some hr]; rfl
  | .tuple es, e', h => by
    simp only [Expr.composeAccess, Option.map_eq_some_iff] at h
    obtain ⟨r, hr, rfl⟩ := h
    rw [composeAccessList_nil es r hr]
  | .bin op x y, e', h => by
    simp only [Expr.composeAccess, Option.bind_eq_some_iff, Option.map_eq_some_iff] at h
    obtain ⟨r, hr, s, hs, rfl⟩ := h
    rw [composeAccess_nil x r hr, composeAccess_nil y s hs]
  | .un op x, e', h => by
    simp only [Expr.composeAccess, Option.map_eq_some_iff] at h
    obtain ⟨r, hr, rfl⟩ := h
    rw [composeAccess_nil x r hr]
  | .ite c t e, e', h => by
    simp only [Expr.composeAccess, Option.bind_eq_some_iff, Option.map_eq_some_iff] at h
    obtain ⟨r, hr, s, hs, q, hq, rfl⟩ := h
    rw [composeAccess_nil c r hr, composeAccess_nil t s hs, composeAccess_nil e q hq]
  | .call f args, e', h => by
    simp only [Expr.composeAccess, Option.map_eq_some_iff] at h
    obtain ⟨r, hr, rfl⟩ := h
    rw [composeAccessList_nil args r hr]
  | .new f args, e', h => by
    simp only [Expr.composeAccess, Option.map_eq_some_iff] at h
    obtain ⟨r, hr, rfl⟩ := h
    rw [composeAccessList_nil args r hr]
theorem composeAccessList_nil : ∀ (es es' : List (Expr F)), Expr.composeAccessList [] es = some es' → es' = es
  | [], es', h => by simpa [Expr.composeAccessList, eq_comm] using h
  | e :: es, es', h => by
    simp only [Expr.composeAccessList, Option.bind_eq_some_iff, Option.map_eq_some_iff] at h
    obtain ⟨r, hr, s, hs, rfl⟩ := h
    rw [composeAccess_nil e r hr, composeAccessList_nil es s hs]
end

theorem Outcome.bind_ok {α β : Type} {o : Outcome α} {f : α → Outcome β} {b : β} (h : o.bind f = .ok b) :
    ∃ a, o = .ok a ∧ f a = .ok b := by
  cases o with
  | ok a => exact ⟨a, rfl, h⟩
  | undef => cases h
  | panic => cases h

theorem evalList_get {X : Ext F} {t : Tup (Val F)} : ∀ {es : List (Expr F)} {us} (i : Nat) (e : Expr F),
    Expr.evalList X es t = .ok us → es[i]? = some e → ∃ u, us[i]? = some u ∧ e.eval X t = .ok u := by
  intro es
  induction es with
  | nil => intro us i e _ h; simp at h
  | cons e0 es ih =>
    intro us i e h he
    simp only [Expr.evalList] at h
    obtain ⟨u, hu, h⟩ := Outcome.bind_ok h
    obtain ⟨us', hus, h⟩ := Outcome.bind_ok h
    cases h
    cases i with
    | zero => simp only [List.getElem?_cons_zero, Option.some.injEq] at he; subst he; exact ⟨u, rfl, hu⟩
    | succ i => exact ih i e hus (by simpa using he)

theorem composeTo_eval {X : Ext F} {t u : Tup (Val F)} {a : List Nat} {o e' : Expr F} (hs : o.IsTuple → a.length ≤ 1)
    (h : o.composeTo a = some e') (ho : o.eval X t = .ok u) : e'.eval X t = (Expr.access a).eval X u := by
  have trivialCase : ∀ {e : Expr F}, (if a = [] then some e else none) = some e' → e.eval X t = .ok u →
      e'.eval X t = (Expr.access a).eval X u := by
    intro e h ho
    by_cases ha : a = []
    · subst ha
      simp only [if_true, Option.some.injEq] at h
      subst h
      simp [ho, Expr.eval, Tup.atPath]
    · simp [ha] at h
  cases o with
  | access a2 =>
    simp only [Expr.composeTo, Option.map_eq_some_iff] at h
    obtain ⟨r, hr, rfl⟩ := h
    rw [joinAccessor_some hr]
    simp only [Expr.eval, atPath_append] at ho ⊢
    cases h2 : t.atPath a2 with
    | none => rw [h2] at ho; cases ho
    | some w => rw [h2] at ho; cases ho; rfl
  | tuple ts =>
    have := hs trivial
    match a, this with
    | [], _ =>
      simp only [Expr.composeTo, Option.some.injEq] at h
      subst h
      rw [ho]; rfl
    | [i], _ =>
      simp only [Expr.composeTo, Option.bind_eq_some_iff] at h
      obtain ⟨sub, hsub, h⟩ := h
      rw [composeAccess_nil _ _ h]
      simp only [Expr.eval] at ho
      obtain ⟨us, hus, ho⟩ := Outcome.bind_ok ho
      cases ho
      obtain ⟨w, hw, hw'⟩ := evalList_get i sub hus hsub
      rw [hw']
      simp [Expr.eval, Tup.atPath, Tup.at?, hw]
  | const c => exact trivialCase h ho
  | bin op x y => exact trivialCase h ho
  | un op x => exact trivialCase h ho
  | ite c x y => exact trivialCase h ho
  | call f args => exact trivialCase h ho
  | new f args => exact trivialCase h ho

mutual
theorem compose_eval {X : Ext F} {t u : Tup (Val F)} {o : Expr F} (ho : o.eval X t = .ok u) :
    ∀ (e e' : Expr F), (o.IsTuple → ∀ a ∈ e.accesses, a.length ≤ 1) → Expr.compose o e = some e' → e'.eval X t = e.eval X u
  | .const c, e', _, h => by
    simp only [Expr.compose, Option.some.injEq] at h
    subst h; rfl
  | .access a, e', hs, h => composeTo_eval (fun ht => hs ht a (by simp [Expr.accesses])) h ho
  | .tuple es, e', hs, h => by
    simp only [Expr.compose, Option.map_eq_some_iff] at h
    obtain ⟨r, hr, rfl⟩ := h
    simp only [Expr.eval]
    rw [composeList_eval ho es r hs hr]
  | .bin op x y, e', hs, h => by
    simp only [Expr.compose, Option.bind_eq_some_iff, Option.map_eq_some_iff] at h
    obtain ⟨r, hr, s, hs', rfl⟩ := h
    simp only [Expr.eval]
    rw [compose_eval ho x r (fun ht a ha => hs ht a (by simp [Expr.accesses, ha])) hr,
      compose_eval ho y s (fun ht a ha => hs ht a (by simp [Expr.accesses, ha])) hs']
  | .un op x, e', hs, h => by
    simp only [Expr.compose, Option.map_eq_some_iff] at h
    obtain ⟨r, hr, rfl⟩ := h
    simp only [Expr.eval]
    rw [compose_eval ho x r hs hr]
  | .ite c x y, e', hs, h => by
    simp only [Expr.compose, Option.bind_eq_some_iff, Option.map_eq_some_iff] at h
    obtain ⟨r, hr, s, hs', q, hq, rfl⟩ := h
    simp only [Expr.eval]
    rw [compose_eval ho c r (fun ht a ha => hs ht a (by simp [Expr.accesses, ha])) hr,
      compose_eval ho x s (fun ht a ha => hs ht a (by simp [Expr.accesses, ha])) hs',
      compose_eval ho y q (fun ht a ha => hs ht a (by simp [Expr.accesses, ha])) hq]
  | .call f args, e', hs, h => by
    simp only [Expr.compose, Option.map_eq_some_iff] at h
    obtain ⟨r, hr, rfl⟩ := h
    simp only [Expr.eval]
    rw [composeList_eval ho args r hs hr]
  | .new f args, e', hs, h => by
    simp only [Expr.compose, Option.map_eq_some_iff] at h
    obtain ⟨r, hr, rfl⟩ := h
    simp only [Expr.eval]
    rw [composeList_eval ho args r hs hr]
theorem composeList_eval {X : Ext F} {t u : Tup (Val F)} {o : Expr F} (ho : o.eval X t = .ok u) :
    ∀ (es es' : List (Expr F)), (o.IsTuple → ∀ a ∈ Expr.accessesList es, a.length ≤ 1) →
      Expr.composeList o es = some es' → Expr.evalList X es' t = Expr.evalList X es u
  | [], es', _, h => by
    simp only [Expr.composeList, Option.some.injEq] at h
    subst h; rfl
  | e :: es, es', hs, h => by
    simp only [Expr.composeList, Option.bind_eq_some_iff, Option.map_eq_some_iff] at h
    obtain ⟨r, hr, s, hs', rfl⟩ := h
    simp only [Expr.evalList]
    rw [compose_eval ho e r (fun ht a ha => hs ht a (by simp [Expr.accessesList, ha])) hr,
      composeList_eval ho es s (fun ht a ha => hs ht a (by simp [Expr.accessesList, ha])) hs']
end

theorem accessesList_get : ∀ {es : List (Expr F)} {i : Nat} {e : Expr F}, es[i]? = some e → ∀ a ∈ e.accesses, a ∈ Expr.accessesList es := by
  intro es
  induction es with
  | nil => intro i e h; simp at h
  | cons e0 es ih =>
    intro i e h a ha
    cases i with
    | zero => simp only [List.getElem?_cons_zero, Option.some.injEq] at h; subst h; simp [Expr.accessesList, ha]
    | succ i => simp only [Expr.accessesList, List.mem_append]; exact .inr (ih (by simpa using h) a ha)

mutual
/-- Composing with a shallow tuple gives a shallow expression. -/
theorem compose_shallow {ts : List (Expr F)} (ho : (Expr.tuple ts).Shallow) :
    ∀ (e e' : Expr F), (∀ a ∈ e.accesses, a.length ≤ 1) → Expr.compose (.tuple ts) e = some e' → ∀ a ∈ e'.accesses, a.length ≤ 1
  | .const c, e', _, h => by
    simp only [Expr.compose, Option.some.injEq] at h
    subst h; simp [Expr.accesses]
  | .access a, e', hs, h => by
    have := hs a (by simp [Expr.accesses])
    match a, this with
    | [], _ => simp only [Expr.compose, Expr.composeTo, Option.some.injEq] at h; subst h; exact ho
    | [i], _ =>
      simp only [Expr.compose, Expr.composeTo, Option.bind_eq_some_iff] at h
      obtain ⟨sub, hsub, h⟩ := h
      rw [composeAccess_nil _ _ h]
      exact fun a ha => ho a (accessesList_get hsub a ha)
  | .tuple es, e', hs, h => by
    simp only [Expr.compose, Option.map_eq_some_iff] at h
    obtain ⟨r, hr, rfl⟩ := h
    exact composeList_shallow ho es r hs hr
  | .bin op x y, e', hs, h => by
    simp only [Expr.compose, Option.bind_eq_some_iff, Option.map_eq_some_iff] at h
    obtain ⟨r, hr, s, hs', rfl⟩ := h
    intro a ha
    simp only [Expr.accesses, List.mem_append] at ha
    rcases ha with ha | ha
    · exact compose_shallow ho x r (fun a ha => hs a (by simp [Expr.accesses, ha])) hr a ha
    · exact compose_shallow ho y s (fun a ha => hs a (by simp [Expr.accesses, ha])) hs' a ha
  | .un op x, e', hs, h => by
    simp only [Expr.compose, Option.map_eq_some_iff] at h
    obtain ⟨r, hr, rfl⟩ := h
    exact compose_shallow ho x r hs hr
  | .ite c x y, e', hs, h => by
    simp only [Expr.compose, Option.bind_eq_some_iff, Option.map_eq_some_iff] at h
    obtain ⟨r, hr, s, hs', q, hq, rfl⟩ := h
    intro a ha
    simp only [Expr.accesses, List.mem_append] at ha
    rcases ha with (ha | ha) | ha
    · exact compose_shallow ho c r (fun a ha => hs a (by simp [Expr.accesses, ha])) hr a ha
    · exact compose_shallow ho x s (fun a ha => hs a (by simp [Expr.accesses, ha])) hs' a ha
    · exact compose_shallow ho y q (fun a ha => hs a (by simp [Expr.accesses, ha])) hq a ha
  | .call f args, e', hs, h => by
    simp only [Expr.compose, Option.map_eq_some_iff] at h
    obtain ⟨r, hr, rfl⟩ := h
    exact composeList_shallow ho args r hs hr
  | .new f args, e', hs, h => by
    simp only [Expr.compose, Option.map_eq_some_iff] at h
    obtain ⟨r, hr, rfl⟩ := h
    exact composeList_shallow ho args r hs hr
theorem composeList_shallow {ts : List (Expr F)} (ho : (Expr.tuple ts).Shallow) :
    ∀ (es es' : List (Expr F)), (∀ a ∈ Expr.accessesList es, a.length ≤ 1) → Expr.composeList (.tuple ts) es = some es' →
      ∀ a ∈ Expr.accessesList es', a.length ≤ 1
  | [], es', _, h => by
    simp only [Expr.composeList, Option.some.injEq] at h
    subst h; simp [Expr.accessesList]
  | e :: es, es', hs, h => by
    simp only [Expr.composeList, Option.bind_eq_some_iff, Option.map_eq_some_iff] at h
    obtain ⟨r, hr, s, hs', rfl⟩ := h
    intro a ha
    simp only [Expr.accessesList, List.mem_append] at ha
    rcases ha with ha | ha
    · exact compose_shallow ho e r (fun a ha => hs a (by simp [Expr.accessesList, ha])) hr a ha
    · exact composeList_shallow ho es s (fun a ha => hs a (by simp [Expr.accessesList, ha])) hs' a ha
end

theorem projectAll_fuse {f g k : Tup (Val F) → Outcome (Tup (Val F))} (hf : ∀ t, f t ≠ .undef)
    (hk : ∀ t u, f t = .ok u → k t = g u) : ∀ (l : List (Elem (Tup (Val F)) T)) (r),
    (projectAll f l).bind (projectAll g) = some r → projectAll k l = some r := by
  intro l
  induction l with
  | nil => intro r h; simpa [projectAll] using h
  | cons e l ih =>
    intro r h
    simp only [projectAll] at h
    cases hfe : f e.tuple with
    | undef => exact absurd hfe (hf _)
    | panic => rw [hfe] at h; cases h
    | ok u =>
      rw [hfe] at h
      simp only [Option.bind_map, Option.bind_eq_some_iff, Function.comp_apply, projectAll] at h
      obtain ⟨l2, hl2, h⟩ := h
      simp only [projectAll, hk _ _ hfe]
      cases hg : g u with
      | panic => rw [hg] at h; cases h
      | undef =>
        rw [hg] at h
        exact ih r (by simp [hl2, h])
      | ok w =>
        rw [hg] at h
        simp only [Option.map_eq_some_iff] at h ⊢
        obtain ⟨r', hr', rfl⟩ := h
        exact ⟨r', ih r' (by simp [hl2, hr']), rfl⟩

/-- The results with a projection still to be put on top. -/
def Flow.pendingResults (X : Ext F) (S : FlowSem F L O₁ O₂ T) (d : Flow F L O₁ O₂) (p : Option (Expr F)) :
    Option (List (Elem (Tup (Val F)) T)) := (Flow.wrap d p).results X S

theorem wrap_congr {X : Ext F} {S : FlowSem F L O₁ O₂ T} {d d' : Flow F L O₁ O₂}
    (h : ∀ r, d.results X S = some r → d'.results X S = some r) (p : Option (Expr F)) (r)
    (hr : (Flow.wrap d p).results X S = some r) : (Flow.wrap d' p).results X S = some r := by
  cases p with
  | none => exact h r hr
  | some e =>
    simp only [Flow.wrap, Flow.results, Option.bind_eq_some_iff] at hr ⊢
    obtain ⟨l, hl, hr⟩ := hr
    exact ⟨l, h l hl, hr⟩

theorem cascade_results {X : Ext F} {S : FlowSem F L O₁ O₂ T} : ∀ (d d' : Flow F L O₁ O₂) (p : Option (Expr F)),
    d.Fusable X → (∀ e, p = some e → d.FusableUnder X e) → d.cascade p = some d' →
    ∀ r, (Flow.wrap d p).results X S = some r → d'.results X S = some r := by
  intro d
  induction d with
  | leaf l =>
    intro d' p _ _ h r hr
    simp only [Flow.cascade, Option.some.injEq] at h
    subst h; exact hr
  | un o d ih =>
    intro d' p hf _ h r hr
    simp only [Flow.cascade, Option.map_eq_some_iff] at h
    obtain ⟨d1, hd1, rfl⟩ := h
    refine wrap_congr (fun r hr => ?_) p r hr
    simp only [Flow.results, Option.bind_eq_some_iff] at hr ⊢
    obtain ⟨l, hl, hr⟩ := hr
    exact ⟨l, ih d1 none hf (by simp) hd1 l hl, hr⟩
  | bin o d1 d2 ih1 ih2 =>
    intro d' p hf _ h r hr
    simp only [Flow.cascade, Option.bind_eq_some_iff, Option.map_eq_some_iff] at h
    obtain ⟨e1, he1, e2, he2, rfl⟩ := h
    refine wrap_congr (fun r hr => ?_) p r hr
    simp only [Flow.results, Option.bind_eq_some_iff] at hr ⊢
    obtain ⟨l, hl, m, hm, hr⟩ := hr
    exact ⟨l, ih1 e1 none hf.1 (by simp) he1 l hl, m, ih2 e2 none hf.2 (by simp) he2 m hm, hr⟩
  | project d q ih =>
    intro d' p hf hu h r hr
    cases p with
    | none => exact ih d' (some q) hf.1 (fun e he => by cases he; exact hf.2) h r hr
    | some p =>
      simp only [Flow.cascade, Option.bind_eq_some_iff] at h
      obtain ⟨e, he, h⟩ := h
      obtain ⟨hs, hun, hq⟩ := hu p rfl
      refine ih d' (some e) hf.1 ?_ h r ?_
      · intro e' he'
        cases he'
        cases d with
        | project d3 p3 =>
          refine ⟨fun _ => ?_, hf.2.2.1, hf.2.2.2⟩
          obtain ⟨ht, hsq⟩ := hq trivial
          cases q with
          | tuple ts => exact compose_shallow hsq p e (hs ht) he
          | _ => exact ht.elim
        | _ => trivial
      · simp only [Flow.wrap, Flow.results] at hr ⊢
        cases hd : d.results X S with
        | none => rw [hd] at hr; cases hr
        | some l =>
          rw [hd] at hr
          exact projectAll_fuse hun (fun t u hu => compose_eval hu p e (fun ht => hs ht) he) l r hr

theorem cascade_fused : ∀ (d d' : Flow F L O₁ O₂) (p : Option (Expr F)), d.cascade p = some d' →
    d'.Fused ∧ (p = none → ¬ d.IsProject → ¬ d'.IsProject) := by
  intro d
  have wrapF : ∀ (d : Flow F L O₁ O₂) (p : Option (Expr F)), d.Fused → ¬ d.IsProject →
      (Flow.wrap d p).Fused ∧ (p = none → ¬ (Flow.wrap d p).IsProject) := by
    intro d p h1 h2
    cases p with
    | none => exact ⟨h1, fun _ => h2⟩
    | some e => exact ⟨⟨h1, h2⟩, by simp⟩
  induction d with
  | leaf l =>
    intro d' p h
    simp only [Flow.cascade, Option.some.injEq] at h
    subst h
    obtain ⟨a, b⟩ := wrapF (Flow.leaf l : Flow F L O₁ O₂) p trivial id
    exact ⟨a, fun h _ => b h⟩
  | un o d ih =>
    intro d' p h
    simp only [Flow.cascade, Option.map_eq_some_iff] at h
    obtain ⟨d1, hd1, rfl⟩ := h
    obtain ⟨a, b⟩ := wrapF (Flow.un o d1) p (ih d1 none hd1).1 id
    exact ⟨a, fun h _ => b h⟩
  | bin o d1 d2 ih1 ih2 =>
    intro d' p h
    simp only [Flow.cascade, Option.bind_eq_some_iff, Option.map_eq_some_iff] at h
    obtain ⟨e1, he1, e2, he2, rfl⟩ := h
    obtain ⟨a, b⟩ := wrapF (Flow.bin o e1 e2) p ⟨(ih1 e1 none he1).1, (ih2 e2 none he2).1⟩ id
    exact ⟨a, fun h _ => b h⟩
  | project d q ih =>
    intro d' p h
    cases p with
    | none => exact ⟨(ih d' (some q) h).1, fun _ hn => absurd trivial hn⟩
    | some p =>
      simp only [Flow.cascade, Option.bind_eq_some_iff] at h
      obtain ⟨e, he, h⟩ := h
      exact ⟨(ih d' (some e) h).1, by simp⟩

theorem fused_cascade : ∀ (d : Flow F L O₁ O₂) (p : Option (Expr F)), d.Fused → (p ≠ none → ¬ d.IsProject) →
    d.cascade p = some (Flow.wrap d p) := by
  intro d
  induction d with
  | leaf l => intro p _ _; rfl
  | un o d ih => intro p h _; simp [Flow.cascade, ih none h (by simp), Flow.wrap]
  | bin o d1 d2 ih1 ih2 => intro p h _; simp [Flow.cascade, ih1 none h.1 (by simp), ih2 none h.2 (by simp), Flow.wrap]
  | project d q ih =>
    intro p h hp
    cases p with
    | none => simp only [Flow.cascade]; exact ih (some q) h.1 (fun _ => h.2)
    | some e => exact absurd trivial (hp (by simp))

end Scallop
