import Verif.Spec.TaggedRule
import Verif.Proof.WorldIter

namespace Scallop.Tagged

variable {V T W ι κ K : Type*}

theorem prefix_get {α : Type*} {l l' : List α} (h : l <+: l') {n : Nat} {a : α} (ha : l[n]? = some a) : l'[n]? = some a := by
  obtain ⟨t, rfl⟩ := h
  rw [List.getElem?_append_left (List.getElem?_eq_some_iff.mp ha).1]; exact ha

theorem get_lt {α : Type*} {l : List α} {n : Nat} {a : α} (h : l[n]? = some a) : n < l.length := (List.getElem?_eq_some_iff.mp h).1

theorem tagElems_spec (c : Prov T W) (ev : Nat → T) (rule : String) (f : Tup V → Option (Option K)) (g : Tup V → Option (Tup V)) :
    ∀ (es : List (Elem (Tup V) T)) (log : List (Event V K)) {log' out}, tagElems c ev rule f g log es = some (log', out) →
    log <+: log' ∧
    (∀ x ∈ out, ∃ e ∈ es, ∃ (n : Nat) (p : K), log'[n]? = some ⟨rule, e.tuple, p⟩ ∧ f e.tuple = some (some p) ∧ g e.tuple = some x.tuple ∧ x.tag = c.mult e.tag (ev n)) ∧
    (∀ e ∈ es, ∀ p t, f e.tuple = some (some p) → g e.tuple = some t →
      ∃ n : Nat, log'[n]? = some ⟨rule, e.tuple, p⟩ ∧ (⟨t, c.mult e.tag (ev n)⟩ : Elem (Tup V) T) ∈ out) := by
  intro es
  induction es with
  | nil =>
    intro log log' out h
    simp only [tagElems, Option.some.injEq, Prod.mk.injEq] at h
    obtain ⟨rfl, rfl⟩ := h
    simp
  | cons e es ih =>
    intro log log' out h
    unfold tagElems at h
    split at h
    · cases h
    · rename_i hf
      obtain ⟨h1, h2, h3⟩ := ih log h
      refine ⟨h1, ?_, ?_⟩
      · intro x hx
        obtain ⟨e', he', r⟩ := h2 x hx
        exact ⟨e', List.mem_cons_of_mem _ he', r⟩
      · intro e' he' p t hp ht
        rcases List.mem_cons.mp he' with rfl | he'
        · rw [hf] at hp; cases hp
        · exact h3 e' he' p t hp ht
    · rename_i p hf
      rw [Option.map_eq_some_iff] at h
      obtain ⟨⟨log1, out1⟩, h, heq⟩ := h
      simp only [Prod.mk.injEq] at heq
      obtain ⟨rfl, rfl⟩ := heq
      obtain ⟨h1, h2, h3⟩ := ih _ h
      have hn : log1[log.length]? = some ⟨rule, e.tuple, p⟩ := prefix_get h1 (by simp)
      refine ⟨(List.prefix_append _ _).trans h1, ?_, ?_⟩
      · intro x hx
        rcases List.mem_append.mp hx with hx | hx
        · rw [Option.mem_toList, Option.map_eq_some_iff] at hx
          obtain ⟨t, ht, rfl⟩ := hx
          exact ⟨e, by simp, log.length, p, hn, hf, ht, rfl⟩
        · obtain ⟨e', he', r⟩ := h2 x hx
          exact ⟨e', List.mem_cons_of_mem _ he', r⟩
      · intro e' he' p' t hp ht
        rcases List.mem_cons.mp he' with rfl | he'
        · rw [hf] at hp
          obtain rfl : p = p' := by simpa using hp
          exact ⟨log.length, hn, List.mem_append_left _ (by simp [ht])⟩
        · obtain ⟨n, r, hr⟩ := h3 e' he' p' t hp ht
          exact ⟨n, r, List.mem_append_right _ hr⟩

theorem tagBatches_spec (c : Prov T W) (ev : Nat → T) (rule : String) (f : Tup V → Option (Option K)) (g : Tup V → Option (Tup V)) :
    ∀ (bs : List (List (Elem (Tup V) T))) (log : List (Event V K)) {log' out}, tagBatches c ev rule f g log bs = some (log', out) →
    log <+: log' ∧
    (∀ b' ∈ out, ∀ x ∈ b', ∃ b ∈ bs, ∃ e ∈ b, ∃ (n : Nat) (p : K), log'[n]? = some ⟨rule, e.tuple, p⟩ ∧ f e.tuple = some (some p) ∧ g e.tuple = some x.tuple ∧
      x.tag = c.mult e.tag (ev n)) ∧
    (∀ b ∈ bs, ∀ e ∈ b, ∀ p t, f e.tuple = some (some p) → g e.tuple = some t →
      ∃ n : Nat, log'[n]? = some ⟨rule, e.tuple, p⟩ ∧ ∃ b' ∈ out, (⟨t, c.mult e.tag (ev n)⟩ : Elem (Tup V) T) ∈ b') := by
  intro bs
  induction bs with
  | nil =>
    intro log log' out h
    simp only [tagBatches, Option.some.injEq, Prod.mk.injEq] at h
    obtain ⟨rfl, rfl⟩ := h
    simp
  | cons b bs ih =>
    intro log log' out h
    unfold tagBatches at h
    rw [Option.bind_eq_some_iff] at h
    obtain ⟨⟨log1, out1⟩, h1, h⟩ := h
    rw [Option.map_eq_some_iff] at h
    obtain ⟨⟨log2, out2⟩, h2, heq⟩ := h
    simp only [Prod.mk.injEq] at heq
    obtain ⟨rfl, rfl⟩ := heq
    obtain ⟨a1, a2, a3⟩ := tagElems_spec c ev rule f g b log h1
    obtain ⟨b1, b2, b3⟩ := ih log1 h2
    refine ⟨a1.trans b1, ?_, ?_⟩
    · intro b' hb' x hx
      rcases List.mem_cons.mp hb' with rfl | hb'
      · obtain ⟨e, he, n, p, r, r'⟩ := a2 x hx
        exact ⟨b, by simp, e, he, n, p, prefix_get b1 r, r'⟩
      · obtain ⟨d, hd, r⟩ := b2 b' hb' x hx
        exact ⟨d, List.mem_cons_of_mem _ hd, r⟩
    · intro d hd e he p t hp ht
      rcases List.mem_cons.mp hd with rfl | hd
      · obtain ⟨n, r, hr⟩ := a3 e he p t hp ht
        exact ⟨n, prefix_get b1 r, out1, by simp, hr⟩
      · obtain ⟨n, r, b', hb', hr⟩ := b3 d hd e he p t hp ht
        exact ⟨n, r, b', List.mem_cons_of_mem _ hb', hr⟩

theorem someEvent_mono {v : T → Prop} {ev : Nat → T} {log log' : List (Event V K)} (h : log <+: log') {r : String} {t : Tup V}
    (hs : someEvent v ev log r t) : someEvent v ev log' r t := by
  obtain ⟨n, e, h1, h2⟩ := hs
  exact ⟨n, e, prefix_get h h1, h2⟩

/-- The relation an update goes to. -/
def Upd.target : Upd V ι κ K → ι
  | .plain i _ => i
  | .tagged _ i _ _ _ => i

theorem enable_target (en : String → Tup V → Prop) (u : Upd V ι κ K) : (u.enable en).1 = u.target := by cases u <;> rfl
theorem forget_target (u : Upd V ι κ K) : u.forget.1 = u.target := by cases u <;> rfl

variable [LinearOrder V]

section upd
variable [LinearOrder W] [Fintype ι] [DecidableEq ι]

omit [LinearOrder W] [Fintype ι] in
/-- What one update does. -/
theorem applyUpd_batches (c : Prov T W) (ev : Nat → T) (p : EStratum V T ι κ K) {first : Bool} {log log' : List (Event V K)} {rel rel' : ι → Relation (Tup V) T}
    {u : Upd V ι κ K} (henv : (⟨rel, p.input, first⟩ : Env V T ι κ).Wf) (hm : c.Uniform) (h1 : u.forget.2.wellSorted) (h2 : u.forget.2.stratified)
    (h : applyUpd c ev p first (log, rel) u = some (log', rel')) :
    log <+: log' ∧ ∃ B, rel' = Function.update rel u.target ((rel u.target).insertBatches c p.earlyDiscard B) ∧
      tuplesB B ⊆ u.forget.2.sem c p.input (fun i => (rel i).visible) ∧
      (u.forget.2.keepsTags → u.forget.2.sharp p.input → ∀ v : T → Prop, c.SoundAt v → c.NegSoundAt v ∨ u.forget.2.noMinus → ∀ L, log' <+: L →
        worldOfB v B ⊆ (u.enable (someEvent v ev L)).2.sem unitProv (fun j => inWorld v (p.input j)) (fun i => (rel i).visibleIn v) ∧
        ∀ P, c.ExactAt P v → (∀ n < L.length, P (ev n)) → ((c.NegSoundAt v ∧ c.NegExactAt P v) ∨ u.forget.2.noMinus) → u.forget.2.readsOnly (fun j => AllTags P (p.input j)) →
          (∀ i, (rel i).TagsIn P) → (∀ b ∈ B, AllTags P b) ∧
          (u.enable (everyEvent v ev L)).2.sem unitProv (fun j => inWorld v (p.input j)) (fun i => (rel i).visibleIn v) ⊆
            (if first then ∅ else (u.enable (everyEvent v ev L)).2.sem unitProv (fun j => inWorld v (p.input j)) (fun i => worldOfB v (rel i).stable)) ∪
              worldOfB v B) := by
  have hflat : ∀ (v : T → Prop) (R : List (Batch V T)), worldOfB v (R.map Batch.elems) = worldOf v (elemsOf R) := by
    intro v R; rw [← worldOfB_flatten]; unfold elemsOf; rw [List.flatMap_def]
  cases u with
  | plain i d =>
    simp only [applyUpd, Option.map_eq_some_iff, Prod.mk.injEq] at h
    obtain ⟨R, hR, rfl, rfl⟩ := h
    refine ⟨List.prefix_rfl, R.map Batch.elems, rfl, ?_, ?_⟩
    · rw [tuplesB_map_elems]; exact (recent_sem c hm henv h1 h2 hR).1
    · intro h3 h4 v hc hneg L _
      rw [hflat]
      refine ⟨recent_world_sound c hc henv h1 h2 h3 h4 hneg hR, ?_⟩
      intro P he _ hne hPi hPr
      refine ⟨?_, recent_world_exact c he henv hPr hPi h1 h2 h3 h4 hne hR⟩
      have hPR : AllTags P (elemsOf R) := recent_allTags c he henv hPr hPi h1 h2 h3 (hne.imp_left And.right) hR
      intro b hb e hbe
      obtain ⟨d, hd, rfl⟩ := List.mem_map.mp hb
      exact hPR e (List.mem_flatMap.mpr ⟨d, hd, hbe⟩)
  | tagged rule i d f g =>
    simp only [applyUpd, Option.bind_eq_some_iff, Option.map_eq_some_iff, Prod.mk.injEq] at h
    obtain ⟨R, hR, ⟨l, B⟩, hB, rfl, rfl⟩ := h
    obtain ⟨t1, t2, t3⟩ := tagBatches_spec c ev rule f g _ _ hB
    have hd1 : d.wellSorted := h1
    have hd2 : d.stratified := h2
    refine ⟨t1, B, rfl, ?_, ?_⟩
    · rintro x ⟨b', hb', e', he', rfl⟩
      obtain ⟨b, hb, e, he, n, q, _, hf, hgx, _⟩ := t2 b' hb' e' he'
      obtain ⟨b0, hb0, rfl⟩ := List.mem_map.mp hb
      refine ⟨e.tuple, ⟨(recent_sem c hm henv hd1 hd2 hR).1 ⟨e, List.mem_flatMap.mpr ⟨b0, hb0, he⟩, rfl⟩, ?_⟩, hgx⟩
      simp [accepts, hf]
    · intro h3 h4 v hc hneg L hL
      have hd3 : d.keepsTags := h3
      have hd4 : d.sharp p.input := h4
      have hdn : c.NegSoundAt v ∨ d.noMinus := hneg
      refine ⟨?_, ?_⟩
      · rintro x ⟨b', hb', e', he', rfl, hv⟩
        obtain ⟨b, hb, e, he, n, q, hn, hf, hgx, htag⟩ := t2 b' hb' e' he'
        obtain ⟨b0, hb0, rfl⟩ := List.mem_map.mp hb
        rw [htag] at hv
        obtain ⟨hv1, hv2⟩ := hc.mult _ _ hv
        refine ⟨e.tuple, ⟨recent_world_sound c hc henv hd1 hd2 hd3 hd4 hdn hR ⟨e, List.mem_flatMap.mpr ⟨b0, hb0, he⟩, rfl, hv1⟩, ?_⟩, hgx⟩
        exact @decide_eq_true _ (_) ⟨by simp [accepts, hf], n, _, prefix_get hL hn, rfl, rfl, hv2⟩
      · intro P he hev hne hPi hPr
        have hne' : (c.NegSoundAt v ∧ c.NegExactAt P v) ∨ d.noMinus := hne
        have hPi' : d.readsOnly (fun j => AllTags P (p.input j)) := hPi
        have hPR : AllTags P (elemsOf R) := recent_allTags c he henv hPr hPi' hd1 hd2 hd3 (hne'.imp_left And.right) hR
        refine ⟨?_, ?_⟩
        · intro b' hb' x hx
          obtain ⟨b, hb, e, he', n, q, hn, _, _, htag⟩ := t2 b' hb' x hx
          obtain ⟨b0, hb0, rfl⟩ := List.mem_map.mp hb
          rw [htag]
          exact he.multIn _ _ (hPR e (List.mem_flatMap.mpr ⟨b0, hb0, he'⟩)) (hev n (get_lt (prefix_get hL hn)))
        · rintro x ⟨t, ⟨ht, hacc⟩, hgx⟩
          have hacc' := hacc
          replace hacc := @of_decide_eq_true _ (_) hacc
          rcases recent_world_exact c he henv hPr hPi' hd1 hd2 hd3 hd4 hne' hR ht with ht | ht
          · cases first with
            | true => simp at ht
            | false =>
              left
              simp only [Bool.false_eq_true, if_false] at ht ⊢
              exact ⟨t, ⟨ht, hacc'⟩, hgx⟩
          · right
            obtain ⟨e, hel, rfl, hv⟩ := ht
            obtain ⟨b0, hb0, hel⟩ := List.mem_flatMap.mp hel
            obtain ⟨q, hq⟩ : ∃ q, f e.tuple = some (some q) := by
              have := hacc.1
              unfold accepts at this
              split at this
              · rename_i q hq; exact ⟨q, hq⟩
              · cases this
            obtain ⟨n, hn, b', hb', hx⟩ := t3 b0.elems (List.mem_map.mpr ⟨b0, hb0, rfl⟩) e hel q x hq hgx
            refine ⟨b', hb', _, hx, rfl, ?_⟩
            exact he.mult' _ _ (hPR e (List.mem_flatMap.mpr ⟨b0, hb0, hel⟩)) (hev n (get_lt (prefix_get hL hn))) hv (hacc.2 n _ (prefix_get hL hn) rfl rfl)

omit [Fintype ι] in
/-- One update: relations only grow, and by what the rules without tags define. -/
theorem applyUpd_spec (c : Prov T W) (ev : Nat → T) (p : EStratum V T ι κ K) (hok : p.forget.Ok c) {s : IterState V T ι} (hm : Mid c p.forget s)
    {log log' : List (Event V K)} {rel rel' : ι → Relation (Tup V) T} (hg : ∀ i, Grown (s.rel i) (rel i)) (hwf : ∀ i, (rel i).Wf)
    (hsd : ∀ i, (rel i).known ⊆ p.forget.lfp c i) {u : Upd V ι κ K} (hu : u ∈ p.updates)
    (h : applyUpd c ev p (s.num == 0) (log, rel) u = some (log', rel')) :
    log <+: log' ∧ (∀ i, Grown (rel i) (rel' i)) ∧ (∀ i, (rel' i).Wf) ∧ (∀ i, (rel' i).known ⊆ p.forget.lfp c i) := by
  have hu' : u.forget ∈ p.forget.updates := List.mem_map.mpr ⟨u, hu, rfl⟩
  have henv : (⟨rel, p.input, s.num == 0⟩ : Env V T ι κ).Wf := by
    refine ⟨hwf, hok.input, ?_⟩
    intro hf i
    rw [(hg i).stable]
    exact hm.stable0 (by simpa using hf) i
  obtain ⟨hlog, B, rfl, hB, _⟩ := applyUpd_batches c ev p henv hok.minus (hok.sorted _ hu') (hok.stratified _ hu') h
  have hv : (fun i => (rel i).visible) = fun i => (s.rel i).visible := by funext i; exact (hg i).visible
  simp only [hv] at hB
  have hlfp : u.forget.2.sem c p.input (fun i => (s.rel i).visible) ⊆ p.forget.lfp c u.target := by
    have := (lfp_closed c p.forget).2 _ hu'
    rw [forget_target] at this
    refine (sem_mono c p.input (fun i => ?_) u.forget.2).trans this
    exact fun x hx => hm.sound i (Or.inl (Or.inl hx))
  refine ⟨hlog, ?_, ?_, ?_⟩
  · intro i
    by_cases hi : i = u.target
    · subst hi; rw [Function.update_self]; exact ⟨rfl, rfl, rfl, (insertBatches_pending_sup c _ _ _).1⟩
    · rw [Function.update_of_ne hi]; exact ⟨rfl, rfl, rfl, fun _ h => h⟩
  · intro i
    by_cases hi : i = u.target
    · subst hi; rw [Function.update_self]; exact insertBatches_wf c _ (hwf _) _
    · rw [Function.update_of_ne hi]; exact hwf i
  · intro i
    by_cases hi : i = u.target
    · subst hi; rw [Function.update_self]
      rintro x ((hx | hx) | hx)
      · exact hsd u.target (Or.inl (Or.inl hx))
      · rcases insertBatches_pending_sub c _ _ _ hx with hx | hx
        · exact hsd u.target (Or.inl (Or.inr hx))
        · exact hlfp (hB hx)
      · exact hsd u.target (Or.inr hx)
    · rw [Function.update_of_ne hi]; exact hsd i

/-- What holds in the world at the head of the loop, if tags are exact: facts and enabled rules. `L` are the events of the whole run. -/
structure EInvC (v : T → Prop) (ev : Nat → T) (p : EStratum V T ι κ K) (L : List (Event V K)) (s : IterState V T ι) : Prop where
  edb : ∀ i facts, p.edb i = some facts → worldOf v facts ⊆ (s.rel i).knownIn v
  rules : s.num ≠ 0 → ∀ u ∈ p.updates, (u.enable (everyEvent v ev L)).2.sem unitProv (fun j => inWorld v (p.input j)) (fun i => (s.rel i).visibleIn v) ⊆
    (s.rel u.target).knownIn v

/-- The same after the relations have stepped. -/
structure EMidC (v : T → Prop) (ev : Nat → T) (p : EStratum V T ι κ K) (L : List (Event V K)) (s : IterState V T ι) : Prop where
  edb : ∀ i facts, p.edb i = some facts → worldOf v facts ⊆ (s.rel i).knownIn v
  rules : s.num ≠ 0 → ∀ u ∈ p.updates, (u.enable (everyEvent v ev L)).2.sem unitProv (fun j => inWorld v (p.input j)) (fun i => worldOfB v (s.rel i).stable) ⊆
    (s.rel u.target).knownIn v

/-- What is true in the world is derivable from enabled rules. -/
def EInv (v : T → Prop) (ev : Nat → T) (p : EStratum V T ι κ K) (L : List (Event V K)) (rel : ι → Relation (Tup V) T) : Prop :=
  ∀ i, (rel i).knownIn v ⊆ p.derivable v (someEvent v ev L) i

omit [LinearOrder W] [Fintype ι] in
theorem applyUpd_world {v : T → Prop} (c : Prov T W) (ev : Nat → T) (hc : c.SoundAt v) (p : EStratum V T ι κ K) (hok : p.forget.Ok c) (hp : p.forget.Plain)
    {s : IterState V T ι} (hm : Mid c p.forget s) {L log log' : List (Event V K)} (hws : EInv v ev p L s.rel) {rel rel' : ι → Relation (Tup V) T}
    (hg : ∀ i, Grown (s.rel i) (rel i)) (hwf : ∀ i, (rel i).Wf) (hsd : EInv v ev p L rel) (hmono : ∀ i, (s.rel i).knownIn v ⊆ (rel i).knownIn v)
    {u : Upd V ι κ K} (hu : u ∈ p.updates) (hneg : c.NegSoundAt v ∨ u.forget.2.noMinus) (hL : log' <+: L)
    (h : applyUpd c ev p (s.num == 0) (log, rel) u = some (log', rel')) :
    EInv v ev p L rel' ∧ (∀ i, (rel i).knownIn v ⊆ (rel' i).knownIn v) ∧
    (∀ P, c.ExactAt P v → (∀ n < L.length, P (ev n)) → (c.NegSoundAt v ∧ c.NegExactAt P v ∨ u.forget.2.noMinus) → p.forget.keepsIn v c →
      u.forget.2.readsOnly (fun j => AllTags P (p.input j)) → (∀ i, (rel i).TagsIn P) →
      (∀ i, (rel' i).TagsIn P) ∧ (EMidC v ev p L s →
      (u.enable (everyEvent v ev L)).2.sem unitProv (fun j => inWorld v (p.input j)) (fun i => (s.rel i).visibleIn v) ⊆ (rel' u.target).knownIn v)) := by
  have hu' : u.forget ∈ p.forget.updates := List.mem_map.mpr ⟨u, hu, rfl⟩
  have henv : (⟨rel, p.input, s.num == 0⟩ : Env V T ι κ).Wf := by
    refine ⟨hwf, hok.input, ?_⟩
    intro hf i
    rw [(hg i).stable]
    exact hm.stable0 (by simpa using hf) i
  obtain ⟨_, B, rfl, _, hB⟩ := applyUpd_batches c ev p henv hok.minus (hok.sorted _ hu') (hok.stratified _ hu') h
  obtain ⟨h1, h2⟩ := hB (hp.tags _ hu') (hp.sharp _ hu') v hc hneg L hL
  have hv : (fun i => (rel i).visibleIn v) = fun i => (s.rel i).visibleIn v := by
    funext i; unfold Relation.visibleIn; rw [(hg i).stable, (hg i).recent]
  have hst : (fun i => worldOfB v (rel i).stable) = fun i => worldOfB v (s.rel i).stable := by funext i; rw [(hg i).stable]
  simp only [hv] at h1
  have hlfp : (u.enable (someEvent v ev L)).2.sem unitProv (fun j => inWorld v (p.input j)) (fun i => (s.rel i).visibleIn v) ⊆
      p.derivable v (someEvent v ev L) u.target := by
    have hmem : u.enable (someEvent v ev L) ∈ ((p.enable (someEvent v ev L)).inWorld v).updates := List.mem_map.mpr ⟨u, hu, rfl⟩
    have := (lfp_closed unitProv ((p.enable (someEvent v ev L)).inWorld v)).2 _ hmem
    rw [enable_target] at this
    refine (sem_mono unitProv _ (fun i => ?_) (u.enable (someEvent v ev L)).2).trans this
    exact Set.subset_union_left.trans (hws i)
  have hgr : (rel u.target).knownIn v ⊆ ((rel u.target).insertBatches c p.earlyDiscard B).knownIn v :=
    Set.union_subset_union_right _ (insertBatches_world_mono c _ _ _)
  refine ⟨?_, ?_, ?_⟩
  · intro i
    by_cases hi : i = u.target
    · subst hi; rw [Function.update_self]
      rintro x (hx | hx)
      · exact hsd u.target (Or.inl hx)
      · rcases insertBatches_world_sound hc.add _ _ _ hx with hx | hx
        · exact hsd u.target (Or.inr hx)
        · exact hlfp (h1 hx)
    · rw [Function.update_of_ne hi]; exact hsd i
  · intro i
    by_cases hi : i = u.target
    · subst hi; rw [Function.update_self]; exact hgr
    · rw [Function.update_of_ne hi]
  · intro P he hev hne hk hPi hPr
    obtain ⟨hPb, h3⟩ := h2 P he hev hne hPi hPr
    refine ⟨?_, fun hcm x hx => ?_⟩
    · intro i
      by_cases hi : i = u.target
      · subst hi
        rw [Function.update_self]
        rintro x (hx | hx)
        · exact hPr u.target (Or.inl hx)
        · rcases insertBatches_world_sound he.notIn _ _ _ hx with hx | ⟨b, hb, hx⟩
          · exact hPr u.target (Or.inr hx)
          · exact allTags_iff.mp (hPb b hb) hx
      · rw [Function.update_of_ne hi]; exact hPr i
    rw [Function.update_self]
    simp only [hv, hst] at h3
    rcases h3 hx with hx | hx
    · by_cases hn : s.num = 0
      · simp [hn] at hx
      · simp [hn] at hx
        exact hgr (hmono u.target (hcm.rules hn u hu hx))
    · exact Or.inr (insertBatches_world_exact he _ hk _ _ hPb hx)

omit [Fintype ι] in
theorem foldUpd_spec (c : Prov T W) (ev : Nat → T) (p : EStratum V T ι κ K) (hok : p.forget.Ok c) {s : IterState V T ι} (hm : Mid c p.forget s) :
    ∀ (us : List (Upd V ι κ K)), (∀ u ∈ us, u ∈ p.updates) → ∀ {log log' : List (Event V K)} (rel rel' : ι → Relation (Tup V) T), (∀ i, Grown (s.rel i) (rel i)) →
    (∀ i, (rel i).Wf) → (∀ i, (rel i).known ⊆ p.forget.lfp c i) → us.foldlM (applyUpd c ev p (s.num == 0)) (log, rel) = some (log', rel') →
    log <+: log' ∧ (∀ i, Grown (rel i) (rel' i)) ∧ (∀ i, (rel' i).Wf) ∧ (∀ i, (rel' i).known ⊆ p.forget.lfp c i) := by
  intro us
  induction us with
  | nil =>
    intro _ log log' rel rel' _ hwf hsd h
    simp only [List.foldlM_nil, Option.pure_def, Option.some.injEq, Prod.mk.injEq] at h
    obtain ⟨rfl, rfl⟩ := h
    exact ⟨List.prefix_rfl, fun i => ⟨rfl, rfl, rfl, fun _ h => h⟩, hwf, hsd⟩
  | cons u us ih =>
    intro hus log log' rel rel' hg hwf hsd h
    simp only [List.foldlM_cons, Option.bind_eq_bind, Option.bind_eq_some_iff] at h
    obtain ⟨⟨log1, rel1⟩, h1, h⟩ := h
    obtain ⟨a0, a1, a2, a3⟩ := applyUpd_spec c ev p hok hm hg hwf hsd (hus u (by simp)) h1
    obtain ⟨b0, b1, b2, b3⟩ := ih (fun v hv => hus v (by simp [hv])) rel1 rel' (fun i => (hg i).trans (a1 i)) a2 a3 h
    exact ⟨a0.trans b0, fun i => (a1 i).trans (b1 i), b2, b3⟩

omit [Fintype ι] in
theorem foldUpd_world {v : T → Prop} (c : Prov T W) (ev : Nat → T) (hc : c.SoundAt v) (p : EStratum V T ι κ K) (hok : p.forget.Ok c) (hp : p.forget.Plain)
    {s : IterState V T ι} (hm : Mid c p.forget s) {L : List (Event V K)} (hws : EInv v ev p L s.rel) :
    ∀ (us : List (Upd V ι κ K)), (∀ u ∈ us, u ∈ p.updates) → (∀ u ∈ us, c.NegSoundAt v ∨ u.forget.2.noMinus) →
    ∀ {log log' : List (Event V K)} (rel rel' : ι → Relation (Tup V) T), (∀ i, Grown (s.rel i) (rel i)) → (∀ i, (rel i).Wf) →
    (∀ i, (rel i).known ⊆ p.forget.lfp c i) → EInv v ev p L rel → (∀ i, (s.rel i).knownIn v ⊆ (rel i).knownIn v) → log' <+: L →
    us.foldlM (applyUpd c ev p (s.num == 0)) (log, rel) = some (log', rel') →
    EInv v ev p L rel' ∧ (∀ i, (rel i).knownIn v ⊆ (rel' i).knownIn v) ∧
    (∀ P, c.ExactAt P v → (∀ n < L.length, P (ev n)) → (∀ u ∈ us, c.NegSoundAt v ∧ c.NegExactAt P v ∨ u.forget.2.noMinus) → p.forget.keepsIn v c →
      (∀ u ∈ us, u.forget.2.readsOnly (fun j => AllTags P (p.input j))) → (∀ i, (rel i).TagsIn P) →
      (∀ i, (rel' i).TagsIn P) ∧ (EMidC v ev p L s → ∀ u ∈ us,
      (u.enable (everyEvent v ev L)).2.sem unitProv (fun j => inWorld v (p.input j)) (fun i => (s.rel i).visibleIn v) ⊆ (rel' u.target).knownIn v)) := by
  intro us
  induction us with
  | nil =>
    intro _ _ log log' rel rel' _ _ _ hsd _ _ h
    simp only [List.foldlM_nil, Option.pure_def, Option.some.injEq, Prod.mk.injEq] at h
    obtain ⟨rfl, rfl⟩ := h
    exact ⟨hsd, fun _ => subset_rfl, fun P _ _ _ _ _ hPr => ⟨hPr, by simp⟩⟩
  | cons u us ih =>
    intro hus hneg log log' rel rel' hg hwf hsd0 hsd hmono hL h
    simp only [List.foldlM_cons, Option.bind_eq_bind, Option.bind_eq_some_iff] at h
    obtain ⟨⟨log1, rel1⟩, h1, h⟩ := h
    obtain ⟨a0, a1, a2, a3⟩ := applyUpd_spec c ev p hok hm hg hwf hsd0 (hus u (by simp)) h1
    have hlog : log1 <+: L := (foldUpd_spec c ev p hok hm us (fun w hw => hus w (by simp [hw])) rel1 rel' (fun i => (hg i).trans (a1 i)) a2 a3 h).1.trans hL
    obtain ⟨d1, d2, d3⟩ := applyUpd_world c ev hc p hok hp hm hws hg hwf hsd hmono (hus u (by simp)) (hneg u (by simp)) hlog h1
    obtain ⟨b1, b2, b3⟩ := ih (fun w hw => hus w (by simp [hw])) (fun w hw => hneg w (by simp [hw])) rel1 rel' (fun i => (hg i).trans (a1 i)) a2 a3
      d1 (fun i => (hmono i).trans (d2 i)) hL h
    refine ⟨b1, fun i => (d2 i).trans (b2 i), ?_⟩
    intro P he hev hne hk hPi hPr
    obtain ⟨e1, e2⟩ := d3 P he hev (hne u (by simp)) hk (hPi u (by simp)) hPr
    obtain ⟨f1, f2⟩ := b3 P he hev (fun u hu => hne u (by simp [hu])) hk (fun u hu => hPi u (by simp [hu])) e1
    refine ⟨f1, fun hcm w hw => ?_⟩
    rcases List.mem_cons.mp hw with rfl | hw
    · exact (e2 hcm).trans (b2 w.target)
    · exact f2 hcm w hw

omit [Fintype ι] in
theorem eIterBody_spec (c : Prov T W) (ev : Nat → T) (p : EStratum V T ι κ K) (hok : p.forget.Ok c) {log : List (Event V K)} {s : IterState V T ι}
    {s' : EState V T ι K} (hm : Mid c p.forget s) (h : eIterBody c ev p (log, s) = some s') :
    log <+: s'.1 ∧ Inv c p.forget s'.2 ∧ s'.2.num = s.num + 1 ∧ (∀ i, Grown (s.rel i) (s'.2.rel i)) := by
  unfold eIterBody at h
  rw [Option.map_eq_some_iff] at h
  obtain ⟨⟨log', rel'⟩, h, rfl⟩ := h
  obtain ⟨h0, h1, h2, h3⟩ := foldUpd_spec c ev p hok hm p.updates (fun _ h => h) s.rel rel' (fun i => ⟨rfl, rfl, rfl, fun _ h => h⟩) hm.wf hm.sound h
  refine ⟨h0, ⟨h2, h3, by simp, ?_⟩, rfl, h1⟩
  intro hp i hi
  simp only [(h1 i).waitlist]
  exact hm.wait hp i (Or.inl hi)

omit [Fintype ι] in
theorem eIterBody_world {v : T → Prop} (c : Prov T W) (ev : Nat → T) (hc : c.SoundAt v) (p : EStratum V T ι κ K) (hok : p.forget.Ok c) (hp : p.forget.Plain)
    (hneg : ∀ u ∈ p.updates, c.NegSoundAt v ∨ u.forget.2.noMinus) {log : List (Event V K)} {s : IterState V T ι}
    {s' : EState V T ι K} (hm : Mid c p.forget s) {L : List (Event V K)} (hL : s'.1 <+: L) (hws : EInv v ev p L s.rel)
    (h : eIterBody c ev p (log, s) = some s') :
    EInv v ev p L s'.2.rel ∧ (∀ P, c.ExactAt P v → (∀ n < L.length, P (ev n)) → (∀ u ∈ p.updates, c.NegSoundAt v ∧ c.NegExactAt P v ∨ u.forget.2.noMinus) →
      p.forget.keepsIn v c → p.forget.InputsIn P → (∀ i, (s.rel i).TagsIn P) → EMidC v ev p L s →
      (∀ i, (s'.2.rel i).TagsIn P) ∧ EInvC v ev p L s'.2) := by
  have hsp := (eIterBody_spec c ev p hok hm h).2.2.2
  unfold eIterBody at h
  rw [Option.map_eq_some_iff] at h
  obtain ⟨⟨log', rel'⟩, h, rfl⟩ := h
  obtain ⟨h1, h2, h3⟩ := foldUpd_world c ev hc p hok hp hm hws p.updates (fun _ h => h) hneg s.rel rel' (fun i => ⟨rfl, rfl, rfl, fun _ h => h⟩)
    hm.wf hm.sound hws (fun _ => subset_rfl) hL h
  refine ⟨h1, fun P he hev hne hk hPi hPr hcm => ?_⟩
  obtain ⟨g1, g2⟩ := h3 P he hev hne hk (fun u hu => hPi _ (List.mem_map.mpr ⟨u, hu, rfl⟩)) hPr
  refine ⟨g1, ?_, ?_⟩
  · intro i facts hf; exact (hcm.edb i facts hf).trans (h2 i)
  · intro _ u hu
    have hv : (fun i => (rel' i).visibleIn v) = fun i => (s.rel i).visibleIn v := by
      funext i; unfold Relation.visibleIn; have := hsp i; rw [this.stable, this.recent]
    simp only [hv]
    exact g2 hcm u hu

theorem eReached_inv (c : Prov T W) (ev : Nat → T) (p : EStratum V T ι κ K) (hok : p.forget.Ok c) {s : EState V T ι K} (h : p.Reached c ev s) :
    Inv c p.forget s.2 := by
  induction h with
  | init => exact (init_inv c p.forget).1
  | step _ h1 h2 ih =>
    obtain ⟨s1, b, he, _, _, ht, _⟩ := needToIterate_spec c p.forget ih
    rw [he] at h1
    obtain ⟨rfl, rfl⟩ := Prod.mk.inj (Option.some.inj h1)
    exact (eIterBody_spec c ev p hok (ht rfl).1 h2).2.1

/-- No scan gallops if at most eight tuples can be derived. -/
theorem eReached_noGallop_small (c : Prov T W) (ev : Nat → T) (p : EStratum V T ι κ K) (hok : p.forget.Ok c) (hfin : ∀ i, (p.forget.lfp c i).Finite)
    (h8 : ∀ i, (p.forget.lfp c i).ncard ≤ 8) {s : EState V T ι K} (hr : p.Reached c ev s) (i : ι) : (s.2.rel i).noGallop c := by
  have hi := eReached_inv c ev p hok hr
  have hcd := condense_spec c (s.2.rel i).toAdd.reverse (fun b hb => (hi.wf i).toAdd b (List.mem_reverse.mp hb))
  have hle : (condense c (s.2.rel i).toAdd.reverse).length ≤ 8 := by
    refine (length_le_ncard hcd.1 ?_ (hfin i)).trans (h8 i)
    rw [hcd.2, tuplesB_reverse]
    exact fun x hx => hi.sound i (Or.inl (Or.inr hx))
  intro b _
  by_cases hb : b.length ≤ 1
  · exact Or.inr hb
  · left; omega

/-- Events are only added, and the run ends in a final state of the stratum without tags. -/
theorem eRunLoop_spec (c : Prov T W) (ev : Nat → T) (p : EStratum V T ι κ K) (hok : p.forget.Ok c) : ∀ (fuel : Nat) (s : EState V T ι K)
    (L : List (Event V K)) (s' : IterState V T ι), Inv c p.forget s.2 → eRunLoop c ev p fuel s = .done L s' → s.1 <+: L ∧ Final c p.forget s' := by
  intro fuel
  induction fuel with
  | zero => intro s L s' _ h; cases h
  | succ fuel ih =>
    intro s L s' hi h
    obtain ⟨s1, b, he, _, _, ht, hf⟩ := needToIterate_spec c p.forget hi
    unfold eRunLoop at h
    rw [he] at h
    cases b with
    | false =>
      simp only [ERunResult.done.injEq] at h
      obtain ⟨rfl, rfl⟩ := h
      exact ⟨List.prefix_rfl, (hf rfl).1⟩
    | true =>
      simp only at h
      cases hb : eIterBody c ev p (s.1, s1) with
      | none => rw [hb] at h; cases h
      | some s2 =>
        rw [hb] at h
        obtain ⟨a1, a2, _⟩ := eIterBody_spec c ev p hok (ht rfl).1 hb
        obtain ⟨b1, b2⟩ := ih s2 L s' a2 h
        exact ⟨a1.trans b1, b2⟩

/-- Soundness in the world, for every way of stopping. -/
theorem eRunLoop_sound {v : T → Prop} (c : Prov T W) (ev : Nat → T) (hc : c.SoundAt v) (p : EStratum V T ι κ K) (hok : p.forget.Ok c) (hp : p.forget.Plain)
    (hneg : ∀ u ∈ p.updates, c.NegSoundAt v ∨ u.forget.2.noMinus) (L : List (Event V K)) : ∀ (fuel : Nat) (s : EState V T ι K) (s' : IterState V T ι),
    Inv c p.forget s.2 → EInv v ev p L s.2.rel → eRunLoop c ev p fuel s = .done L s' → EInv v ev p L s'.rel := by
  have hprog : ∀ i, (p.forget.sched i).progress := fun i => by rw [hp.lfp i]; trivial
  intro fuel
  induction fuel with
  | zero => intro s s' _ _ h; cases h
  | succ fuel ih =>
    intro s s' hi hws h
    obtain ⟨s1, b, he, hnum, hkn, ht, hf⟩ := needToIterate_spec c p.forget hi
    obtain ⟨rel, b', hch, hnum', hcase⟩ := needToIterate_changed he
    obtain ⟨rel', hch', hm', _, _⟩ := changedAll_mid c p.forget hi
    rw [hch] at hch'
    obtain ⟨rfl, -⟩ := Prod.mk.inj (Option.some.inj hch')
    have hw1 : EInv v ev p L rel := fun i =>
      (changedAll_world c hc.add p.forget hp.lfp hi.wf (fun i => hi.wait hprog i (hp.lfp i)) hch i).1.trans (hws i)
    have hw2 : EInv v ev p L s1.rel := by
      rcases hcase with rfl | ⟨_, _, b'', h2⟩
      · exact hw1
      · exact fun i => (changedAll_world c hc.add p.forget hp.lfp hm'.wf (fun i => hm'.wait hprog i (Or.inl (hp.lfp i))) h2 i).1.trans (hw1 i)
    unfold eRunLoop at h
    rw [he] at h
    cases b with
    | false =>
      simp only [ERunResult.done.injEq] at h
      obtain ⟨rfl, rfl⟩ := h
      exact hw2
    | true =>
      obtain ⟨hm, hmc, hlim⟩ := ht rfl
      simp only at h
      cases hb : eIterBody c ev p (s.1, s1) with
      | none => rw [hb] at h; cases h
      | some s2 =>
        rw [hb] at h
        have hi2 := (eIterBody_spec c ev p hok hm hb).2.1
        exact ih s2 s' hi2 (eIterBody_world c ev hc p hok hp hneg hm (eRunLoop_spec c ev p hok fuel s2 L s' hi2 h).1 hw2 hb).1 h

/-- Lower bound in the world, for runs to a fixpoint. -/
theorem eRunLoop_exact {v P : T → Prop} (c : Prov T W) (ev : Nat → T) (hc : c.ExactAt P v) (p : EStratum V T ι κ K) (hok : p.forget.Ok c) (hp : p.forget.Plain)
    (hkeep : p.forget.keepsIn v c) (hPi : p.forget.InputsIn P)
    (hneg : ∀ u ∈ p.updates, (c.NegSoundAt v ∧ c.NegExactAt P v) ∨ u.forget.2.noMinus) (hlim : p.iterLimit = none) (hgoal : p.stopAtGoal = false)
    (hq : (c.ExactAt (fun _ => True) v ∧ c.LinearAt v) ∨ ∀ s, p.Reached c ev s → ∀ i, (s.2.rel i).noGallop c) (L : List (Event V K))
    (hev : ∀ n < L.length, P (ev n)) :
    ∀ (fuel : Nat) (s : EState V T ι K) (s' : IterState V T ι), p.Reached c ev s → EInv v ev p L s.2.rel → (∀ i, (s.2.rel i).TagsIn P) → EInvC v ev p L s.2 →
    (∀ i, (c.ExactAt (fun _ => True) v ∧ c.LinearAt v) ∨ DisjointB ((s.2.rel i).recent :: (s.2.rel i).stable)) →
    eRunLoop c ev p fuel s = .done L s' → ∀ i, (s'.rel i).recent = [] ∧ (s'.rel i).TagsIn P ∧
      worldOfB v (s'.rel i).stable ⊆ p.derivable v (someEvent v ev L) i ∧ p.derivable v (everyEvent v ev L) i ⊆ worldOfB v (s'.rel i).stable := by
  have hprog : ∀ i, (p.forget.sched i).progress := fun i => by rw [hp.lfp i]; trivial
  intro fuel
  induction fuel with
  | zero => intro s s' _ _ _ _ _ h; cases h
  | succ fuel ih =>
    intro s s' hreach hws hPs hcs hdis h
    have hi := eReached_inv c ev p hok hreach
    obtain ⟨s1, b, he, hnum, hkn, ht, hf⟩ := needToIterate_spec c p.forget hi
    obtain ⟨rel, b', hch, hnum', hcase⟩ := needToIterate_changed he
    have hrel : s1.rel = rel := by
      rcases hcase with h1 | ⟨_, h1 | h1, _⟩
      · exact h1
      · exact absurd hlim h1
      · have : p.stopAtGoal = true := h1
        rw [hgoal] at this; cases this
    subst hrel
    have hstep : StepOk v c s.2.rel := by
      rcases hq with hl | hq
      · exact .inl hl
      · by_cases hl : c.ExactAt (fun _ => True) v ∧ c.LinearAt v
        · exact .inl hl
        · exact .inr (fun i => ⟨(hdis i).resolve_left hl, hq s hreach i⟩)
    have hcw := changedAll_world c hc.add p.forget hp.lfp hi.wf (fun i => hi.wait hprog i (hp.lfp i)) hch
    have hP1 : ∀ i, (s1.rel i).TagsIn P := fun i =>
      (changedAll_world c hc.notIn p.forget hp.lfp hi.wf (fun i => hi.wait hprog i (hp.lfp i)) hch i).1.trans (hPs i)
    have hw1 : EInv v ev p L s1.rel := fun i => (hcw i).1.trans (hws i)
    have hmid : EMidC v ev p L s1 := by
      refine ⟨fun i facts hfs => (hcs.edb i facts hfs).trans (((hcw i).2 P hc (hPs i)).2 hstep), ?_⟩
      intro hn u hu
      refine (sem_mono unitProv _ (fun i => ((hcw i).2 P hc (hPs i)).1) (u.enable (everyEvent v ev L)).2).trans ?_
      exact (hcs.rules (by rw [← hnum]; exact hn) u hu).trans (((hcw u.target).2 P hc (hPs u.target)).2 hstep)
    have hdis1 : ∀ i, (c.ExactAt (fun _ => True) v ∧ c.LinearAt v) ∨ DisjointB ((s1.rel i).recent :: (s1.rel i).stable) := by
      intro i
      rcases hstep with hl | hs
      · exact .inl hl
      · obtain ⟨b2, hb2⟩ := changedAll_eq hch i
        rw [hp.lfp i] at hb2
        exact .inr (changed_unique c (hi.wf i) (hs i).1 (hs i).2 hb2).1
    unfold eRunLoop at h
    rw [he] at h
    cases b with
    | false =>
      simp only [ERunResult.done.injEq] at h
      obtain ⟨hlog, rfl⟩ := h
      obtain ⟨hfin, hstop⟩ := hf rfl
      cases hstop with
      | limit n hn _ => have : p.iterLimit = some n := hn; rw [hlim] at this; cases this
      | goal hg _ => have : p.stopAtGoal = true := hg; rw [hgoal] at this; cases this
      | fixpoint hm hmc hr hn =>
        have hk : ∀ i, (s1.rel i).knownIn v = worldOfB v (s1.rel i).stable := by
          intro i
          unfold Relation.knownIn Relation.visibleIn
          rw [hfin.toAdd i, hr i]; simp
        refine fun i => ⟨hr i, hP1 i, ?_, ?_⟩
        · rw [← hk]; exact hw1 i
        · refine lfp_least unitProv ((p.enable (everyEvent v ev L)).inWorld v) (X := fun i => worldOfB v (s1.rel i).stable) ⟨?_, ?_⟩ i
          · intro i facts hf
            simp only [Stratum.inWorld, Option.map_eq_some_iff] at hf
            obtain ⟨fs, hfs, rfl⟩ := hf
            simp only
            rw [tuples_inWorld, ← hk]
            exact hmid.edb i fs hfs
          · intro u hu
            obtain ⟨u', hu', rfl⟩ := List.mem_map.mp hu
            have := hmid.rules hn u' hu'
            rw [hk] at this
            rw [enable_target]
            exact this
    | true =>
      obtain ⟨hm, hmc, _⟩ := ht rfl
      simp only at h
      cases hb : eIterBody c ev p (s.1, s1) with
      | none => rw [hb] at h; cases h
      | some s2 =>
        rw [hb] at h
        have hsp := eIterBody_spec c ev p hok hm hb
        have hL := (eRunLoop_spec c ev p hok fuel s2 L s' hsp.2.1 h).1
        have hbw := eIterBody_world c ev hc.toSoundAt p hok hp (fun u hu => (hneg u hu).imp_left And.left) hm hL hw1 hb
        obtain ⟨q1, q2⟩ := hbw.2 P hc hev hneg hkeep hPi hP1 hmid
        refine ih s2 s' (.step hreach he hb) hbw.1 q1 q2 ?_ h
        intro i
        rw [(hsp.2.2.2 i).recent, (hsp.2.2.2 i).stable]
        exact hdis1 i

/-! ### One event for each rule and tuple -/

omit [LinearOrder V] [LinearOrder W] [Fintype ι] [DecidableEq ι] in
theorem tagElems_log (c : Prov T W) (ev : Nat → T) (rule : String) (f : Tup V → Option (Option K)) (g : Tup V → Option (Tup V)) :
    ∀ (es : List (Elem (Tup V) T)) (log : List (Event V K)) {log' out}, tagElems c ev rule f g log es = some (log', out) →
    log' = log ++ eventsOf rule f (es.map Elem.tuple) := by
  intro es
  induction es with
  | nil =>
    intro log log' out h
    simp only [tagElems, Option.some.injEq, Prod.mk.injEq] at h
    simp [eventsOf, h.1]
  | cons e es ih =>
    intro log log' out h
    unfold tagElems at h
    split at h
    · cases h
    · rename_i hf
      rw [ih log h]
      simp [eventsOf, hf]
    · rename_i q hf
      rw [Option.map_eq_some_iff] at h
      obtain ⟨⟨log1, out1⟩, h, heq⟩ := h
      simp only [Prod.mk.injEq] at heq
      obtain ⟨rfl, rfl⟩ := heq
      rw [ih _ h]
      simp [eventsOf, hf]

omit [LinearOrder V] [LinearOrder W] [Fintype ι] [DecidableEq ι] in
theorem eventsOf_append (rule : String) (f : Tup V → Option (Option K)) (a b : List (Tup V)) : eventsOf rule f (a ++ b) = eventsOf rule f a ++ eventsOf rule f b := by
  simp [eventsOf]

omit [LinearOrder V] [LinearOrder W] [Fintype ι] [DecidableEq ι] in
theorem tagBatches_log (c : Prov T W) (ev : Nat → T) (rule : String) (f : Tup V → Option (Option K)) (g : Tup V → Option (Tup V)) :
    ∀ (bs : List (List (Elem (Tup V) T))) (log : List (Event V K)) {log' out}, tagBatches c ev rule f g log bs = some (log', out) →
    log' = log ++ eventsOf rule f (bs.flatten.map Elem.tuple) := by
  intro bs
  induction bs with
  | nil =>
    intro log log' out h
    simp only [tagBatches, Option.some.injEq, Prod.mk.injEq] at h
    simp [eventsOf, h.1]
  | cons b bs ih =>
    intro log log' out h
    simp only [tagBatches, Option.bind_eq_some_iff, Option.map_eq_some_iff] at h
    obtain ⟨⟨l1, o1⟩, h1, ⟨l2, o2⟩, h2, heq⟩ := h
    simp only [Prod.mk.injEq] at heq
    obtain ⟨rfl, rfl⟩ := heq
    rw [ih _ h2, tagElems_log c ev rule f g b log h1]
    simp [eventsOf_append]

omit [LinearOrder W] [Fintype ι] in
theorem applyUpd_log (c : Prov T W) (ev : Nat → T) (p : EStratum V T ι κ K) (hs : p.Separate) {first : Bool} {log log' : List (Event V K)}
    {rel rel' : ι → Relation (Tup V) T} {u : Upd V ι κ K} (hu : u ∈ p.updates) (henv : (⟨rel, p.input, first⟩ : Env V T ι κ).Wf)
    (h1 : u.forget.2.wellSorted) (h : applyUpd c ev p first (log, rel) u = some (log', rel')) :
    log' = log ++ if first then u.events p.input else [] := by
  cases u with
  | plain i d =>
    simp only [applyUpd, Option.map_eq_some_iff, Prod.mk.injEq] at h
    obtain ⟨_, _, rfl, _⟩ := h
    simp [Upd.events]
  | tagged rule i d f g =>
    simp only [applyUpd, Option.bind_eq_some_iff, Option.map_eq_some_iff, Prod.mk.injEq] at h
    obtain ⟨R, hR, r, hr, rfl, _⟩ := h
    have hd : d.wellSorted := h1
    have hst := (hs.static _ _ _ _ _ hu).1
    have := (DF.static_batches c henv d hd hst).1 R hR
    rw [tagBatches_log c ev rule f g _ _ hr]
    cases first with
    | false => simp only [Bool.false_eq_true, if_false] at this ⊢; subst this; simp [eventsOf]
    | true =>
      simp only [if_true] at this ⊢
      have he : (R.map Batch.elems).flatten = elemsOf R := by simp [elemsOf, List.flatMap]
      rw [he, this.1, bag_static c p.input _ (fun _ => rfl) d hst, bag_listing c p.input d hst]
      rfl

omit [Fintype ι] in
theorem foldUpd_log (c : Prov T W) (ev : Nat → T) (p : EStratum V T ι κ K) (hok : p.forget.Ok c) (hs : p.Separate) {s : IterState V T ι} (hm : Mid c p.forget s) :
    ∀ (us : List (Upd V ι κ K)), (∀ u ∈ us, u ∈ p.updates) → ∀ {log log' : List (Event V K)} (rel rel' : ι → Relation (Tup V) T), (∀ i, Grown (s.rel i) (rel i)) →
    (∀ i, (rel i).Wf) → (∀ i, (rel i).known ⊆ p.forget.lfp c i) → us.foldlM (applyUpd c ev p (s.num == 0)) (log, rel) = some (log', rel') →
    log' = log ++ if s.num == 0 then us.flatMap (Upd.events p.input) else [] := by
  intro us
  induction us with
  | nil =>
    intro _ log log' rel rel' _ hwf hsd h
    simp only [List.foldlM_nil, Option.pure_def, Option.some.injEq, Prod.mk.injEq] at h
    obtain ⟨rfl, rfl⟩ := h
    simp
  | cons u us ih =>
    intro hus log log' rel rel' hg hwf hsd h
    simp only [List.foldlM_cons, Option.bind_eq_bind, Option.bind_eq_some_iff] at h
    obtain ⟨⟨log1, rel1⟩, h1, h⟩ := h
    have hu := hus u (by simp)
    obtain ⟨a0, a1, a2, a3⟩ := applyUpd_spec c ev p hok hm hg hwf hsd hu h1
    have henv : (⟨rel, p.input, s.num == 0⟩ : Env V T ι κ).Wf := by
      refine ⟨hwf, hok.input, ?_⟩
      intro hf i
      rw [(hg i).stable]
      exact hm.stable0 (by simpa using hf) i
    rw [ih (fun v hv => hus v (by simp [hv])) rel1 rel' (fun i => (hg i).trans (a1 i)) a2 a3 h,
      applyUpd_log c ev p hs hu henv (hok.sorted _ (List.mem_map.mpr ⟨u, hu, rfl⟩)) h1]
    split <;> simp

theorem eRunLoop_log (c : Prov T W) (ev : Nat → T) (p : EStratum V T ι κ K) (hok : p.forget.Ok c) (hs : p.Separate) : ∀ (fuel : Nat) (s : EState V T ι K)
    (L : List (Event V K)) (s' : IterState V T ι), Inv c p.forget s.2 → s.1 = (if s.2.num == 0 then [] else p.events) → eRunLoop c ev p fuel s = .done L s' →
    L = (if s'.num == 0 then [] else p.events) := by
  intro fuel
  induction fuel with
  | zero => intro s L s' _ _ h; cases h
  | succ fuel ih =>
    intro s L s' hi hl h
    obtain ⟨s1, b, he, hnum, _, ht, hf⟩ := needToIterate_spec c p.forget hi
    unfold eRunLoop at h
    rw [he] at h
    cases b with
    | false =>
      simp only [ERunResult.done.injEq] at h
      obtain ⟨rfl, rfl⟩ := h
      rw [hnum]; exact hl
    | true =>
      simp only at h
      have hm := (ht rfl).1
      cases hb : eIterBody c ev p (s.1, s1) with
      | none => rw [hb] at h; cases h
      | some s2 =>
        rw [hb] at h
        obtain ⟨a1, a2, a3, _⟩ := eIterBody_spec c ev p hok hm hb
        refine ih s2 L s' a2 ?_ h
        unfold eIterBody at hb
        rw [Option.map_eq_some_iff] at hb
        obtain ⟨⟨log', rel'⟩, hb, rfl⟩ := hb
        have := foldUpd_log c ev p hok hs hm p.updates (fun _ h => h) s1.rel rel' (fun i => ⟨rfl, rfl, rfl, fun _ h => h⟩) hm.wf hm.sound hb
        simp only [this, hl, hnum]
        by_cases hz : s.2.num = 0
        · simp [hz, EStratum.events]
        · simp [hz]

/-- A run that does not stop at a goal has at least one iteration. -/
theorem eRunLoop_num (c : Prov T W) (ev : Nat → T) (p : EStratum V T ι κ K) (hgoal : p.stopAtGoal = false) : ∀ (fuel : Nat) (s : EState V T ι K)
    (L : List (Event V K)) (s' : IterState V T ι), eRunLoop c ev p fuel s = .done L s' → s'.num ≠ 0 := by
  intro fuel
  induction fuel with
  | zero => intro s L s' h; cases h
  | succ fuel ih =>
    intro s L s' h
    unfold eRunLoop at h
    split at h
    · cases h
    · next s1 he =>
      simp only [ERunResult.done.injEq] at h
      obtain ⟨rfl, rfl⟩ := h
      unfold needToIterate at he
      split at he
      · cases he
      · next rel ch hch =>
        have hg : p.forget.stopAtGoal = false := hgoal
        simp only [hg, Bool.false_and, Bool.false_eq_true, if_false] at he
        split at he
        · split at he
          · next hn =>
            rw [Option.map_eq_some_iff] at he
            obtain ⟨r, _, he⟩ := he
            simp only [Prod.mk.injEq, and_true] at he
            subst he
            intro h0
            simp only at h0
            rw [h0] at hn
            cases hl : p.forget.iterLimit <;> simp [hl] at hn
          · simp at he
        · next hn =>
          split at he
          · simp at he
          · simp only [Option.some.injEq, Prod.mk.injEq, and_true] at he
            subst he
            intro h0
            simp only at h0
            simp [h0] at hn
    · split at h
      · cases h
      · exact ih _ L s' h

/-! ### Probabilities of events -/

/-- Every event is of a tagged rule and has the probability that its predicate gives. -/
def LogOk (p : EStratum V T ι κ K) (log : List (Event V K)) : Prop :=
  ∀ e ∈ log, ∃ i d f g, Upd.tagged e.rule i d f g ∈ p.updates ∧ f e.inst = some (some e.prob)

omit [LinearOrder W] [Fintype ι] in
theorem applyUpd_logOk (c : Prov T W) (ev : Nat → T) (p : EStratum V T ι κ K) {first : Bool} {x x' : List (Event V K) × (ι → Relation (Tup V) T)}
    {u : Upd V ι κ K} (hu : u ∈ p.updates) (hl : LogOk p x.1) (h : applyUpd c ev p first x u = some x') : LogOk p x'.1 := by
  cases u with
  | plain i d =>
    simp only [applyUpd, Option.map_eq_some_iff] at h
    obtain ⟨_, _, rfl⟩ := h
    exact hl
  | tagged rule i d f g =>
    simp only [applyUpd, Option.bind_eq_some_iff, Option.map_eq_some_iff] at h
    obtain ⟨R, hR, r, hr, rfl⟩ := h
    simp only
    rw [tagBatches_log c ev rule f g _ _ hr]
    intro e he
    rcases List.mem_append.mp he with he | he
    · exact hl e he
    · simp only [eventsOf, List.mem_filterMap, Option.map_eq_some_iff] at he
      obtain ⟨t, _, q, hq, rfl⟩ := he
      exact ⟨i, d, f, g, hu, Option.join_eq_some_iff.mp hq⟩

omit [LinearOrder W] [Fintype ι] in
theorem foldUpd_logOk (c : Prov T W) (ev : Nat → T) (p : EStratum V T ι κ K) {first : Bool} : ∀ (us : List (Upd V ι κ K)), (∀ u ∈ us, u ∈ p.updates) →
    ∀ {x x' : List (Event V K) × (ι → Relation (Tup V) T)}, LogOk p x.1 → us.foldlM (applyUpd c ev p first) x = some x' → LogOk p x'.1 := by
  intro us
  induction us with
  | nil =>
    intro _ x x' hl h
    simp only [List.foldlM_nil, Option.pure_def, Option.some.injEq] at h
    exact h ▸ hl
  | cons u us ih =>
    intro hus x x' hl h
    simp only [List.foldlM_cons, Option.bind_eq_bind, Option.bind_eq_some_iff] at h
    obtain ⟨x1, h1, h⟩ := h
    exact ih (fun v hv => hus v (by simp [hv])) (applyUpd_logOk c ev p (hus u (by simp)) hl h1) h

theorem eRunLoop_logOk (c : Prov T W) (ev : Nat → T) (p : EStratum V T ι κ K) : ∀ (fuel : Nat) (s : EState V T ι K)
    (L : List (Event V K)) (s' : IterState V T ι), LogOk p s.1 → eRunLoop c ev p fuel s = .done L s' → LogOk p L := by
  intro fuel
  induction fuel with
  | zero => intro s L s' _ h; cases h
  | succ fuel ih =>
    intro s L s' hl h
    unfold eRunLoop at h
    split at h
    · cases h
    · simp only [ERunResult.done.injEq] at h
      exact h.1 ▸ hl
    · rename_i s1 _
      cases hb : eIterBody c ev p (s.1, s1) with
      | none => rw [hb] at h; cases h
      | some s2 =>
        rw [hb] at h
        refine ih s2 L s' ?_ h
        unfold eIterBody at hb
        rw [Option.map_eq_some_iff] at hb
        obtain ⟨x, hb, rfl⟩ := hb
        exact foldUpd_logOk c ev p p.updates (fun _ h => h) hl hb

end upd

omit [LinearOrder V] in
theorem names_unique {us : List (Upd V ι κ K)} (h : (us.filterMap Upd.name).Nodup) {rule : String} {i i' : ι} {d d' : DF V ι κ} {f f' : Tup V → Option (Option K)}
    {g g' : Tup V → Option (Tup V)} (h1 : Upd.tagged rule i d f g ∈ us) (h2 : Upd.tagged rule i' d' f' g' ∈ us) : f = f' := by
  induction us with
  | nil => cases h1
  | cons u us ih =>
    have hin : ∀ {i d f g}, Upd.tagged rule i d f g ∈ us → rule ∈ us.filterMap Upd.name := fun hm => List.mem_filterMap.mpr ⟨_, hm, rfl⟩
    rcases List.mem_cons.mp h1 with rfl | h1' <;> rcases List.mem_cons.mp h2 with h2 | h2
    · injection h2 with _ _ _ hf; exact hf.symm
    · rw [List.filterMap_cons] at h
      simp only [Upd.name, List.nodup_cons] at h
      exact absurd (hin h2) h.1
    · subst h2
      rw [List.filterMap_cons] at h
      simp only [Upd.name, List.nodup_cons] at h
      exact absurd (hin h1') h.1
    · refine ih ?_ h1' h2
      rw [List.filterMap_cons] at h
      split at h
      · exact h
      · exact (List.nodup_cons.mp h).2

theorem enable_sem_mono (p : κ → List (Elem (Tup V) Unit)) (X : ι → Set (Tup V)) {en en' : String → Tup V → Prop} (u : Upd V ι κ K)
    (h : ∀ rule i d f g, u = .tagged rule i d f g → ∀ t, accepts f t = true → en rule t → en' rule t) :
    (u.enable en).2.sem unitProv p X ⊆ (u.enable en').2.sem unitProv p X := by
  cases u with
  | plain i d => exact subset_rfl
  | tagged rule i d f g =>
    rintro x ⟨t, ⟨ht, hacc⟩, hgx⟩
    replace hacc := @of_decide_eq_true _ (_) hacc
    exact ⟨t, ⟨ht, @decide_eq_true _ (_) ⟨hacc.1, h rule i d f g rfl t hacc.1 hacc.2⟩⟩, hgx⟩

/-- More tuples enabled, more derivable. -/
theorem derivable_mono (v : T → Prop) (p : EStratum V T ι κ K) {en en' : String → Tup V → Prop}
    (h : ∀ rule i d f g, Upd.tagged rule i d f g ∈ p.updates → ∀ t, accepts f t = true → en rule t → en' rule t) (i : ι) :
    p.derivable v en i ⊆ p.derivable v en' i := by
  refine lfp_least unitProv ((p.enable en).inWorld v) (X := p.derivable v en') ⟨?_, ?_⟩ i
  · exact (lfp_closed unitProv ((p.enable en').inWorld v)).1
  · intro u hu
    obtain ⟨u', hu', rfl⟩ := List.mem_map.mp hu
    have := (lfp_closed unitProv ((p.enable en').inWorld v)).2 _ (List.mem_map.mpr ⟨u', hu', rfl⟩)
    rw [enable_target] at this ⊢
    exact (enable_sem_mono _ _ u' (fun rule i d f g he => h rule i d f g (he ▸ hu'))).trans this

theorem separate_oneEach (p : EStratum V T ι κ K) (hs : p.Separate) : OneEach p.events := by
  have key : ∀ us : List (Upd V ι κ K), (∀ rule i d f g, Upd.tagged rule i d f g ∈ us → (d.listing p.input).Nodup) →
      (us.filterMap Upd.name).Nodup →
      ((us.flatMap (Upd.events p.input)).map (fun e => (e.rule, e.inst))).Nodup ∧
      ∀ e ∈ (us.flatMap (Upd.events p.input)),
        e.rule ∈ us.filterMap Upd.name := by
    intro us
    induction us with
    | nil => intro _ _; simp
    | cons u us ih =>
      intro h1 h2
      cases u with
      | plain i d => exact ih (fun rule i d f g h => h1 rule i d f g (List.mem_cons_of_mem _ h)) (by simpa [Upd.name, List.filterMap_cons] using h2)
      | tagged rule i d f g =>
        simp only [List.filterMap_cons, Upd.name, List.nodup_cons] at h2
        obtain ⟨i1, i2⟩ := ih (fun rule i d f g h => h1 rule i d f g (List.mem_cons_of_mem _ h)) h2.2
        have hr : ∀ e ∈ eventsOf rule f (d.listing p.input), e.rule = rule := by
          intro e he
          simp only [eventsOf, List.mem_filterMap, Option.map_eq_some_iff] at he
          obtain ⟨t, _, q, _, rfl⟩ := he
          rfl
        have hn : ((eventsOf rule f (d.listing p.input)).map (fun e => (e.rule, e.inst))).Nodup := by
          have hl := h1 rule i d f g (by simp)
          unfold eventsOf
          generalize d.listing p.input = ts at hl
          induction ts with
          | nil => simp
          | cons t ts iht =>
            rw [List.nodup_cons] at hl
            rw [List.filterMap_cons]
            cases hq : (f t).join with
            | none => simpa [hq] using iht hl.2
            | some q =>
              simp only [Option.map_some, List.map_cons, List.nodup_cons]
              refine ⟨?_, iht hl.2⟩
              intro hm
              simp only [List.mem_map, List.mem_filterMap, Option.map_eq_some_iff] at hm
              obtain ⟨e, ⟨t', ht', q', _, rfl⟩, he⟩ := hm
              simp only [Prod.mk.injEq, true_and] at he
              exact hl.1 (he ▸ ht')
        refine ⟨?_, ?_⟩
        · simp only [List.flatMap_cons, List.map_append, Upd.events]
          refine List.nodup_append.mpr ⟨hn, i1, ?_⟩
          intro x hx y hy hxy
          obtain ⟨e, he, rfl⟩ := List.mem_map.mp hx
          obtain ⟨e', he', rfl⟩ := List.mem_map.mp hy
          have h3 := i2 e' he'
          simp only [Prod.mk.injEq] at hxy
          rw [← hxy.1, hr e he] at h3
          exact h2.1 h3
        · intro e he
          simp only [List.flatMap_cons, List.mem_append, Upd.events] at he
          simp only [List.filterMap_cons, Upd.name, List.mem_cons]
          rcases he with he | he
          · exact .inl (hr e he)
          · exact .inr (i2 e he)
  obtain ⟨hn, _⟩ := key p.updates (fun rule i d f g h => (hs.static rule i d f g h).2) hs.names
  intro m n d e hm hne hr hi
  have h1 : (p.events.map (fun e => (e.rule, e.inst)))[m]? = some (d.rule, d.inst) := by rw [List.getElem?_map, hm]; rfl
  have h2 : (p.events.map (fun e => (e.rule, e.inst)))[n]? = some (d.rule, d.inst) := by rw [List.getElem?_map, hne, hr, hi]; rfl
  have hlt := get_lt h1
  exact (List.getElem?_inj hlt hn).mp (h1.trans h2.symm)

end Scallop.Tagged
