import Verif.Proof.Statics2

namespace Scallop.Statics

open Scallop

variable {V T W ι κ : Type*} [LinearOrder V]

omit [LinearOrder V] in
theorem Same.refl (B : List (Batch V T)) : Same B B := List.Perm.refl _

omit [LinearOrder V] in
theorem oSame_of_eq {B' B : List (Batch V T)} (h : B'.map Batch.elems = B.map Batch.elems) : OSame (some B') (some B) := by
  intro X hX; cases hX; exact ⟨B, rfl, by unfold Same; rw [h]⟩

omit [LinearOrder V] in
theorem OSame.some' {o' o : Option (List (Batch V T))} (h : OSame o' o) : OSome o' o := by
  intro B' hB
  obtain ⟨B, e, hs⟩ := h B' hB
  exact ⟨B, e, hs.some'⟩

omit [LinearOrder V] in
theorem OSame.append {a' a b' b : Option (List (Batch V T))} (h1 : OSame a' a) (h2 : OSame b' b) :
    OSame (do some ((← a') ++ (← b'))) (do some ((← a) ++ (← b))) := by
  intro R hR
  simp only [Option.bind_eq_bind, Option.bind_eq_some_iff, Option.some.injEq] at hR
  obtain ⟨A', e1, B', e2, rfl⟩ := hR
  obtain ⟨A, rfl, s1⟩ := h1 A' e1
  obtain ⟨B, rfl, s2⟩ := h2 B' e2
  refine ⟨A ++ B, rfl, ?_⟩
  unfold Same at *
  rw [List.map_append, List.map_append]
  exact s1.append s2

omit [LinearOrder V] in
theorem OSome.append {a' a b' b : Option (List (Batch V T))} (h1 : OSome a' a) (h2 : OSome b' b) :
    OSome (do some ((← a') ++ (← b'))) (do some ((← a) ++ (← b))) := by
  intro R hR
  simp only [Option.bind_eq_bind, Option.bind_eq_some_iff, Option.some.injEq] at hR
  obtain ⟨A', e1, B', e2, rfl⟩ := hR
  obtain ⟨A, rfl, s1⟩ := h1 A' e1
  obtain ⟨B, rfl, s2⟩ := h2 B' e2
  refine ⟨A ++ B, rfl, ?_⟩
  intro b hb
  rcases List.mem_append.mp hb with hb | hb
  · obtain ⟨b', h, e⟩ := s1 b hb; exact ⟨b', List.mem_append_left _ h, e⟩
  · obtain ⟨b', h, e⟩ := s2 b hb; exact ⟨b', List.mem_append_right _ h, e⟩

theorem oall_stable {c : Prov T W} {env : Env V T ι κ} {d : DF V ι κ} {P : List (Elem (Tup V) T) → Prop} (h : AllB c env d P) : OAll P (d.stable c env) :=
  fun B hB b hb => h B (Or.inl hB) b hb

theorem oall_recent {c : Prov T W} {env : Env V T ι κ} {d : DF V ι κ} {P : List (Elem (Tup V) T) → Prop} (h : AllB c env d P) : OAll P (d.recent c env) :=
  fun B hB b hb => h B (Or.inr hB) b hb

/-- The recent batches of a difference or anti-join: the right side only reads inputs, so nothing depends on the stable batches of the left side. -/
theorem Like2.recents_static {f' f : Batch V T → Batch V T → Option (Batch V T)} {P1 P2 : List (Elem (Tup V) T) → Prop}
    {Q : List (Elem (Tup V) T) → List (Elem (Tup V) T) → Prop} {F : List (Elem (Tup V) T) → List (Elem (Tup V) T) → List (Elem (Tup V) T)}
    (hl : Like2 f' f P1 P2 Q F) (c : Prov T W) {env : Env V T ι κ} (hw : env.Wf) {d1 d2 : DF V ι κ} (hs : d2.static)
    (h1 : OSome (stable c env d1) (d1.stable c env)) (h2 : OSame (recent c env d1) (d1.recent c env)) (h3 : OSame (stable c env d2) (d2.stable c env))
    (h4 : OSame (recent c env d2) (d2.recent c env)) (p2 : OAll P1 (d1.recent c env)) (p3 : OAll P2 (d2.stable c env)) (p4 : OAll P2 (d2.recent c env)) :
    OSame (recentBinary f' (stable c env d1) (recent c env d1) (stable c env d2) (recent c env d2))
      (Scallop.recentBinary f (d1.stable c env) (d1.recent c env) (d2.stable c env) (d2.recent c env)) := by
  intro R' hR
  obtain ⟨S1', R1', S2', R2', a', b', d', e1, e2, e3, e4, ha, hb, hd, rfl⟩ := statics_recentBinary_some hR
  obtain ⟨S1, g1, _⟩ := h1 _ e1
  obtain ⟨R1, g2, s2⟩ := h2 _ e2
  obtain ⟨S2, g3, s3⟩ := h3 _ e3
  obtain ⟨R2, g4, s4⟩ := h4 _ e4
  obtain ⟨b, hb2, sb⟩ := hl.same s2 s3 (p2 _ g2) (p3 _ g3) hb
  obtain ⟨d, hd2, sd⟩ := hl.same s2 s4 (p2 _ g2) (p4 _ g4) hd
  rw [g1, g2, g3, g4]
  cases hf : env.first with
  | true =>
    have n1 := stable_first c hw hf d1 _ e1
    have n2 : S1 = [] := by rw [DF.stable_first c hw hf d1] at g1; cases g1; rfl
    subst n1 n2
    have ea : a' = [] := by simpa [binaryBatches] using ha.symm
    subst ea
    refine ⟨_, recentBinary_of (a := []) (by simp [binaryBatches]) hb2 hd2, same_three (Same.refl _) sb sd⟩
  | false =>
    have n1 := (static_recent c hf d2 hs _).1 e4
    have n2 := (static_recent c hf d2 hs _).2 g4
    subst n1 n2
    have ea : a' = [] := by rw [binary_nil_right] at ha; cases ha; rfl
    subst ea
    exact ⟨_, recentBinary_of (a := []) (binary_nil_right _) hb2 hd2, same_three (Same.refl _) sb sd⟩

/-- What each rule of a compiled program produces in an iteration is what the interpreter produces. -/
theorem corr (c : Prov T W) {env : Env V T ι κ} (hw : env.Wf) : ∀ d : DF V ι κ, d.wellSorted →
    OSome (stable c env d) (d.stable c env) ∧ (d.positive → OSame (stable c env d) (d.stable c env) ∧ OSame (recent c env d) (d.recent c env)) ∧
      (d.stratified → OSame (recent c env d) (d.recent c env)) := by
  intro d
  induction d with
  | unit t => intro _; exact ⟨(oSame_of_eq rfl).some', fun _ => ⟨oSame_of_eq rfl, oSame_of_eq rfl⟩, fun _ => oSame_of_eq rfl⟩
  | rel i =>
    intro _
    have h : OSame (stable c env (.rel i)) ((DF.rel i).stable c env) := oSame_of_eq (by simp)
    exact ⟨h.some', fun _ => ⟨h, oSame_of_eq rfl⟩, fun _ => oSame_of_eq rfl⟩
  | input j => intro _; exact ⟨(oSame_of_eq rfl).some', fun _ => ⟨oSame_of_eq rfl, oSame_of_eq rfl⟩, fun _ => oSame_of_eq rfl⟩
  | filter d p ih =>
    intro h
    have ⟨i1, i2, i3⟩ := ih h
    have hl := like_total1 (filterBatch (T := T) p) (fun l => l.filter (fun e => p e.tuple)) (fun _ => rfl)
    simp only [stable, recent, DF.stable, DF.recent, map_eq_bind]
    exact ⟨hl.oSome i1 (oall_true _), fun hp => ⟨hl.oSame (i2 hp).1 (oall_true _), hl.oSame (i2 hp).2 (oall_true _)⟩, fun hp => hl.oSame (i3 hp) (oall_true _)⟩
  | sorted d ih =>
    intro h
    have ⟨i1, i2, i3⟩ := ih h
    have hl := like_total1 (sortedBatch (V := V) (T := T)) sortElems (fun _ => rfl)
    simp only [stable, recent, DF.stable, DF.recent, map_eq_bind]
    exact ⟨hl.oSome i1 (oall_true _), fun hp => ⟨hl.oSame (i2 hp).1 (oall_true _), hl.oSame (i2 hp).2 (oall_true _)⟩, fun hp => hl.oSame (i3 hp) (oall_true _)⟩
  | project d f ih =>
    intro h
    have ⟨i1, i2, i3⟩ := ih h
    have hl := like_project (T := T) f
    simp only [stable, recent, DF.stable, DF.recent, map_eq_bind]
    exact ⟨hl.oSome i1 (oall_true _), fun hp => ⟨hl.oSame (i2 hp).1 (oall_true _), hl.oSame (i2 hp).2 (oall_true _)⟩, fun hp => hl.oSame (i3 hp) (oall_true _)⟩
  | find d k ih =>
    intro h
    have ⟨i1, i2, i3⟩ := ih h.1
    have hb := (DF.batches_sorted c hw d h.1).2 h.2
    have hl := like_find (T := T) k
    simp only [stable, recent, DF.stable, DF.recent]
    exact ⟨hl.oSome i1 (oall_stable hb), fun hp => ⟨hl.oSame (i2 hp).1 (oall_stable hb), hl.oSame (i2 hp).2 (oall_recent hb)⟩,
      fun hp => hl.oSame (i3 hp) (oall_recent hb)⟩
  | union d1 d2 ih1 ih2 =>
    intro h
    have ⟨i1, i2, i3⟩ := ih1 h.1
    have ⟨j1, j2, j3⟩ := ih2 h.2
    simp only [stable, recent, DF.stable, DF.recent]
    exact ⟨i1.append j1, fun hp => ⟨(i2 hp.1).1.append (j2 hp.2).1, (i2 hp.1).2.append (j2 hp.2).2⟩, fun hp => (i3 hp.1).append (j3 hp.2)⟩
  | intersect d1 d2 ih1 ih2 =>
    intro h
    have ⟨i1, i2, _⟩ := ih1 h.1
    have ⟨j1, j2, _⟩ := ih2 h.2.1
    have b1 := (DF.batches_sorted c hw d1 h.1).1 h.2.2.1
    have b2 := (DF.batches_sorted c hw d2 h.2.1).1 h.2.2.2
    have hl := like_intersect (V := V) c
    simp only [stable, recent, DF.stable, DF.recent]
    have hr : d1.positive ∧ d2.positive → _ := fun hp => hl.recents (i2 hp.1).1 (i2 hp.1).2 (j2 hp.2).1 (j2 hp.2).2 (oall_stable b1) (oall_recent b1) (oall_stable b2) (oall_recent b2)
    exact ⟨hl.oSome i1 j1 (oall_stable b1) (oall_stable b2), fun hp => ⟨hl.oSame (i2 hp.1).1 (j2 hp.2).1 (oall_stable b1) (oall_stable b2), hr hp⟩, hr⟩
  | join d1 d2 ih1 ih2 =>
    intro h
    have ⟨i1, i2, _⟩ := ih1 h.1
    have ⟨j1, j2, _⟩ := ih2 h.2.1
    have b1 := (DF.batches_sorted c hw d1 h.1).2 h.2.2.1
    have b2 := (DF.batches_sorted c hw d2 h.2.1).2 h.2.2.2
    have hl := like_join (V := V) c
    simp only [stable, recent, DF.stable, DF.recent]
    have hr : d1.positive ∧ d2.positive → _ := fun hp => hl.recents (i2 hp.1).1 (i2 hp.1).2 (j2 hp.2).1 (j2 hp.2).2 (oall_stable b1) (oall_recent b1) (oall_stable b2) (oall_recent b2)
    exact ⟨hl.oSome i1 j1 (oall_stable b1) (oall_stable b2), fun hp => ⟨hl.oSame (i2 hp.1).1 (j2 hp.2).1 (oall_stable b1) (oall_stable b2), hr hp⟩, hr⟩
  | product d1 d2 ih1 ih2 =>
    intro h
    have ⟨i1, i2, _⟩ := ih1 h.1
    have ⟨j1, j2, _⟩ := ih2 h.2
    have hl := like_product (V := V) c
    simp only [stable, recent, DF.stable, DF.recent]
    have hr : d1.positive ∧ d2.positive → _ := fun hp => hl.recents (i2 hp.1).1 (i2 hp.1).2 (j2 hp.2).1 (j2 hp.2).2 (oall_true _) (oall_true _) (oall_true _) (oall_true _)
    exact ⟨hl.oSome i1 j1 (oall_true _) (oall_true _), fun hp => ⟨hl.oSame (i2 hp.1).1 (j2 hp.2).1 (oall_true _) (oall_true _), hr hp⟩, hr⟩
  | difference d1 d2 ih1 ih2 =>
    intro h
    have ⟨i1, _, i3⟩ := ih1 h.1
    have ⟨_, j2, _⟩ := ih2 h.2.1
    have b1 := (DF.batches_sorted c hw d1 h.1).1 h.2.2.1
    have b2 := (DF.batches_sorted c hw d2 h.2.1).2 h.2.2.2
    refine ⟨(oSame_of_eq rfl).some', fun hp => hp.elim, ?_⟩
    intro hp
    have jp := j2 (static_positive d2 hp.2)
    simp only [recent, DF.recent]
    exact (like_difference (V := V) c).recents_static c hw hp.2 i1 (i3 hp.1) jp.1 jp.2 (oall_recent b1) (oall_stable b2) (oall_recent b2)
  | antijoin d1 d2 ih1 ih2 =>
    intro h
    have ⟨i1, _, i3⟩ := ih1 h.1
    have ⟨_, j2, _⟩ := ih2 h.2.1
    have b1 := (DF.batches_sorted c hw d1 h.1).2 h.2.2.1
    have b2 := (DF.batches_sorted c hw d2 h.2.1).2 h.2.2.2
    refine ⟨fun B' _ => ⟨[], rfl, by simp [Some']⟩, fun hp => hp.elim, ?_⟩
    intro hp
    have jp := j2 (static_positive d2 hp.2)
    simp only [recent, DF.recent]
    exact (like_antijoin (V := V) c).recents_static c hw hp.2 i1 (i3 hp.1) jp.1 jp.2 (oall_recent b1) (oall_stable b2) (oall_recent b2)
  | _ =>
    intro _
    exact ⟨fun B h => by simp [stable] at h, fun _ => ⟨fun B h => by simp [stable] at h, fun B h => by simp [recent] at h⟩, fun _ B h => by simp [recent] at h⟩

/-! ### Iteration -/

section iteration
variable [LinearOrder W]

/-- The interpreter's stratum with the same inputs, facts and rules. -/
def Stratum.interp (p : Stratum V T ι κ) : Scallop.Stratum V T ι κ where
  input := p.input
  edb := fun i => some (p.facts i).flatten
  updates := p.updates
  sched := fun _ => .lfp
  goals := []
  iterLimit := none
  stopAtGoal := false
  earlyDiscard := true

theorem init_inv (c : Prov T W) (p : Stratum V T ι κ) : Inv c p.interp (p.init c) ∧ InvC c p.interp (p.init c) := by
  have hwf : (Relation.new : Relation (Tup V) T).Wf := ⟨by simp [Relation.new], List.Pairwise.nil, by simp [Relation.new]⟩
  have hk : ∀ fs : List (List (Elem (Tup V) T)), (Relation.new.insertBatches c false fs).known = tuples fs.flatten := by
    intro fs
    have h0 : (Relation.new.insertBatches c false fs).known = (Relation.new.insertBatches c false fs).pending := by
      ext x; simp [Relation.known, Relation.visible, Relation.insertBatches, Relation.new, tuplesB, tuples]
    rw [h0]
    refine Set.Subset.antisymm ((insertBatches_pending_sub c false _ _).trans ?_) ?_
    · rintro x (⟨b, hb, _⟩ | ⟨b, hb, e, he, rfl⟩)
      · simp [Relation.new] at hb
      · exact ⟨e, List.mem_flatten.mpr ⟨b, hb, he⟩, rfl⟩
    · rintro x ⟨e, he, rfl⟩
      obtain ⟨b, hb, he⟩ := List.mem_flatten.mp he
      exact (insertBatches_pending_sup c false _ _).2 (fun h => by cases h) ⟨b, hb, e, he, rfl⟩
  refine ⟨⟨fun i => insertBatches_wf c _ hwf _, ?_, fun _ i => ⟨rfl, rfl⟩, fun _ i _ => rfl⟩, ⟨?_, fun h => absurd rfl h⟩⟩
  · intro i
    have h1 := (lfp_closed c p.interp).1 i _ rfl
    simp only [Stratum.init, hk]
    exact h1
  · intro i facts hf
    cases hf
    simp only [Stratum.init, hk]
    exact fun _ h => h

section step
variable [Fintype ι] [DecidableEq ι]

theorem changedAll_mid (c : Prov T W) (p : Stratum V T ι κ) {s : IterState V T ι} (h : Inv c p.interp s) :
    ((changedAll c s.rel).2 = true ↔ ∃ i, ((changedAll c s.rel).1 i).recent ≠ []) ∧ Mid c p.interp ⟨s.num, (changedAll c s.rel).1⟩ ∧
      (InvC c p.interp s → MidC c p.interp ⟨s.num, (changedAll c s.rel).1⟩) := by
  have hr := fun i => changed_spec c (s.rel i) (h.wf i)
  have hkn : ∀ i, (changed c (s.rel i)).1.known = (s.rel i).known := by
    intro i
    obtain ⟨_, _, h2, h3, h4, _⟩ := hr i
    unfold Relation.known
    have : (changed c (s.rel i)).1.pending = ∅ := by ext x; simp [Relation.pending, h2, tuplesB]
    rw [this, Set.union_empty, h4, h3]
  refine ⟨?_, ⟨fun i => (hr i).2.1, ?_, ?_, fun i => (hr i).2.2.1, ?_⟩, ?_⟩
  · simp only [changedAll, decide_eq_true_eq]
    constructor
    · rintro ⟨i, hi⟩
      rw [(hr i).1] at hi
      exact ⟨i, by intro h'; rw [h'] at hi; simp at hi⟩
    · rintro ⟨i, hi⟩
      refine ⟨i, ?_⟩
      rw [(hr i).1]
      simpa using hi
  · intro i; simp only [changedAll, hkn]; exact h.sound i
  · intro hp i _
    simp only [changedAll, (hr i).2.2.2.1]
    exact h.wait hp i rfl
  · intro hn i
    exact (hr i).2.2.2.2.2.2 (h.first hn i).1 (h.first hn i).2
  · intro hc
    refine ⟨?_, ?_⟩
    · intro i facts hf; simp only [changedAll, hkn]; exact hc.edb i facts hf
    · intro hn u hu
      simp only [changedAll, hkn]
      exact (sem_mono c p.interp.input (fun i => (hr i).2.2.2.2.2.1) u.2).trans (hc.rules hn u hu)

omit [Fintype ι] [LinearOrder W] in
/-- A compiled update adds what the interpreter's adds, up to the order of the batches. -/
theorem applyUpdate_corr (c : Prov T W) (p : Stratum V T ι κ) {first : Bool} {rel rel' : ι → Relation (Tup V) T} {u : ι × DF V ι κ}
    (henv : (⟨rel, p.input, first⟩ : Env V T ι κ).Wf) (hws : u.2.wellSorted) (hst : u.2.stratified) (h : applyUpdate c p first rel u = some rel') :
    ∃ R R', u.2.recent c ⟨rel, p.input, first⟩ = some R ∧ Same R' R ∧
      rel' = Function.update rel u.1 ((rel u.1).insertBatches c true (R'.map Batch.elems)) := by
  unfold applyUpdate at h
  rw [Option.map_eq_some_iff] at h
  obtain ⟨R', hR', rfl⟩ := h
  obtain ⟨R, hR, hs⟩ := (corr c henv u.2 hws).2.2 hst R' hR'
  exact ⟨R, R', hR, hs, rfl⟩

omit [LinearOrder V] in
theorem Same.tuplesB {R' R : List (Batch V T)} (h : Same R' R) : tuplesB (R'.map Batch.elems) = tuplesB (R.map Batch.elems) := by
  ext x
  constructor
  · rintro ⟨b, hb, hx⟩; exact ⟨b, h.subset hb, hx⟩
  · rintro ⟨b, hb, hx⟩; exact ⟨b, h.symm.subset hb, hx⟩

theorem applyUpdate_spec (c : Prov T W) (p : Stratum V T ι κ) (hok : p.interp.Ok c) {s : IterState V T ι} (hm : Mid c p.interp s)
    {rel rel' : ι → Relation (Tup V) T} (hg : ∀ i, Grown (s.rel i) (rel i)) (hwf : ∀ i, (rel i).Wf) (hsd : ∀ i, (rel i).known ⊆ p.interp.lfp c i)
    {u : ι × DF V ι κ} (hu : u ∈ p.updates) (h : applyUpdate c p (s.num == 0) rel u = some rel') :
    (∀ i, Grown (rel i) (rel' i)) ∧ (∀ i, (rel' i).Wf) ∧ (∀ i, (rel' i).known ⊆ p.interp.lfp c i) ∧
    ((∀ t, c.discard t = false) → MidC c p.interp s → u.2.sem c p.input (fun i => (s.rel i).visible) ⊆ (rel' u.1).known) := by
  have henv : (⟨rel, p.input, s.num == 0⟩ : Env V T ι κ).Wf := by
    refine ⟨hwf, hok.input, ?_⟩
    intro hf i
    rw [(hg i).stable]
    exact hm.stable0 (by simpa using hf) i
  obtain ⟨R, R', hR, hsame, rfl⟩ := applyUpdate_corr c p henv (hok.sorted u hu) (hok.stratified u hu) h
  obtain ⟨h1, h2⟩ := recent_sem c hok.minus henv (hok.sorted u hu) (hok.stratified u hu) hR
  have hv : (fun i => (rel i).visible) = fun i => (s.rel i).visible := by funext i; exact (hg i).visible
  have hst : (fun i => tuplesB (rel i).stable) = fun i => tuplesB (s.rel i).stable := by funext i; rw [(hg i).stable]
  simp only [hv, hst] at h1 h2
  rw [← tuplesB_map_elems, ← hsame.tuplesB] at h1 h2
  have hgrow : Grown (rel u.1) ((rel u.1).insertBatches c true (R'.map Batch.elems)) := ⟨rfl, rfl, rfl, (insertBatches_pending_sup c _ _ _).1⟩
  have hlfp : u.2.sem c p.input (fun i => (s.rel i).visible) ⊆ p.interp.lfp c u.1 := by
    refine (sem_mono c p.input (fun i => ?_) u.2).trans ((lfp_closed c p.interp).2 u hu)
    exact fun x hx => hm.sound i (Or.inl (Or.inl hx))
  have hkn : ((rel u.1).insertBatches c true (R'.map Batch.elems)).known ⊆ p.interp.lfp c u.1 := by
    rintro x ((hx | hx) | hx)
    · exact hsd u.1 (Or.inl (Or.inl hx))
    · rcases insertBatches_pending_sub c _ _ _ hx with hx | hx
      · exact hsd u.1 (Or.inl (Or.inr hx))
      · exact hlfp (h1 hx)
    · exact hsd u.1 (Or.inr hx)
  refine ⟨?_, ?_, ?_, ?_⟩
  · intro i
    by_cases hi : i = u.1
    · subst hi; rw [Function.update_self]; exact hgrow
    · rw [Function.update_of_ne hi]; exact ⟨rfl, rfl, rfl, fun _ h => h⟩
  · intro i
    by_cases hi : i = u.1
    · subst hi; rw [Function.update_self]; exact insertBatches_wf c _ (hwf _) _
    · rw [Function.update_of_ne hi]; exact hwf i
  · intro i
    by_cases hi : i = u.1
    · subst hi; rw [Function.update_self]; exact hkn
    · rw [Function.update_of_ne hi]; exact hsd i
  · intro hk hc x hx
    rw [Function.update_self]
    rcases h2 hx with hx | hx
    · by_cases hn : s.num = 0
      · simp [hn] at hx
      · simp [hn] at hx
        exact hgrow.known ((hg u.1).known (hc.rules hn u hu hx))
    · exact Or.inl (Or.inr ((insertBatches_pending_sup c _ _ _).2 (fun _ => hk) hx))

theorem foldUpdates_spec (c : Prov T W) (p : Stratum V T ι κ) (hok : p.interp.Ok c) {s : IterState V T ι} (hm : Mid c p.interp s) :
    ∀ (us : List (ι × DF V ι κ)), (∀ u ∈ us, u ∈ p.updates) → ∀ (rel rel' : ι → Relation (Tup V) T), (∀ i, Grown (s.rel i) (rel i)) →
    (∀ i, (rel i).Wf) → (∀ i, (rel i).known ⊆ p.interp.lfp c i) → us.foldlM (applyUpdate c p (s.num == 0)) rel = some rel' →
    (∀ i, Grown (rel i) (rel' i)) ∧ (∀ i, (rel' i).Wf) ∧ (∀ i, (rel' i).known ⊆ p.interp.lfp c i) ∧
    ((∀ t, c.discard t = false) → MidC c p.interp s → ∀ u ∈ us, u.2.sem c p.input (fun i => (s.rel i).visible) ⊆ (rel' u.1).known) := by
  intro us
  induction us with
  | nil =>
    intro _ rel rel' _ hwf hsd h
    simp only [List.foldlM_nil, Option.pure_def, Option.some.injEq] at h
    subst h
    exact ⟨fun i => ⟨rfl, rfl, rfl, fun _ h => h⟩, hwf, hsd, by simp⟩
  | cons u us ih =>
    intro hus rel rel' hg hwf hsd h
    simp only [List.foldlM_cons, Option.bind_eq_bind, Option.bind_eq_some_iff] at h
    obtain ⟨rel1, h1, h⟩ := h
    obtain ⟨a1, a2, a3, a4⟩ := applyUpdate_spec c p hok hm hg hwf hsd (hus u (by simp)) h1
    obtain ⟨b1, b2, b3, b4⟩ := ih (fun v hv => hus v (by simp [hv])) rel1 rel' (fun i => (hg i).trans (a1 i)) a2 a3 h
    refine ⟨fun i => (a1 i).trans (b1 i), b2, b3, ?_⟩
    intro hk hc v hv
    rcases List.mem_cons.mp hv with rfl | hv
    · exact (a4 hk hc).trans (b1 v.1).known
    · exact b4 hk hc v hv

/-- When the loop of a compiled stratum stops. -/
theorem runLoop_spec (c : Prov T W) (p : Stratum V T ι κ) (hok : p.interp.Ok c) : ∀ (fuel : Nat) (s s' : IterState V T ι), Inv c p.interp s →
    runLoop c p fuel s = .done s' → Mid c p.interp s' ∧ (∀ i, (s'.rel i).recent = []) ∧ s'.num ≠ 0 ∧
      ((∀ t, c.discard t = false) → InvC c p.interp s → MidC c p.interp s') := by
  intro fuel
  induction fuel with
  | zero => intro s s' _ h; cases h
  | succ fuel ih =>
    intro s s' hi h
    obtain ⟨hx, hm, hmc⟩ := changedAll_mid c p hi
    simp only [runLoop] at h
    split at h
    · rename_i hb
      split at h
      · cases h
      · rename_i rel hrel
        obtain ⟨h1, h2, h3, h4⟩ := foldUpdates_spec c p hok hm p.updates (fun _ h => h) _ rel (fun i => ⟨rfl, rfl, rfl, fun _ h => h⟩) hm.wf hm.sound hrel
        have hi' : Inv c p.interp ⟨s.num + 1, rel⟩ := by
          refine ⟨h2, h3, by simp, ?_⟩
          intro hp i hl
          simp only [(h1 i).waitlist]
          exact hm.wait hp i (Or.inl rfl)
        obtain ⟨r1, r2, r3, r4⟩ := ih _ s' hi' h
        refine ⟨r1, r2, r3, fun hk hc => r4 hk ⟨?_, ?_⟩⟩
        · intro i facts hf; exact ((hmc hc).edb i facts hf).trans (h1 i).known
        · intro _ u hu
          have hv : (fun i => (rel i).visible) = fun i => ((changedAll c s.rel).1 i).visible := by funext i; exact (h1 i).visible
          simp only [hv]
          exact h4 hk (hmc hc) u hu
    · rename_i hb
      cases h
      simp only [Bool.or_eq_true, not_or, beq_iff_eq] at hb
      refine ⟨hm, fun i => ?_, hb.2, fun _ hc => hmc hc⟩
      by_contra hne
      exact hb.1 (hx.mpr ⟨i, hne⟩)

end step
end iteration

end Scallop.Statics
