import Verif.Proof.InputFacts

/-!
# Lemmas on sampled indices and on batches (C115)
-/

namespace Scallop.InputMap

theorem chosen_drawn (pos : P → Prop) (T : Torch P) (hT : DrawRight pos T) (c : Config P) (shape : List Nat) (t : List Nat → P) (k : Nat)
    (hk : c.retainK = some k) (hd : c.sampleDim = none) (hs : c.strategy = .categorical) (hp : ∃ x, Valid shape x ∧ pos (t x)) :
    ∃ drawn, chosen T c shape t = some drawn ∧ drawn.length = k ∧ ∀ x ∈ drawn, Valid shape x ∧ pos (t x) := by
  refine ⟨(List.range k).map fun m => unflat shape (T.draw ((allIndices shape).map t) [m]), by simp only [chosen, hk, hd, hs], by simp, ?_⟩
  intro x hx
  obtain ⟨m, _, rfl⟩ := List.mem_map.mp hx
  obtain ⟨y, hy, hpy⟩ := hp
  obtain ⟨p, hg, hpp⟩ := hT ((allIndices shape).map t) [m] ⟨t y, List.mem_map.mpr ⟨y, (mem_allIndices _ _).mpr hy, rfl⟩, hpy⟩
  have hlt : T.draw ((allIndices shape).map t) [m] < prod shape := by
    rcases Nat.lt_or_ge (T.draw ((allIndices shape).map t) [m]) ((allIndices shape).map t).length with h | h
    · simpa [length_allIndices] using h
    · rw [List.getElem?_eq_none h] at hg; simp at hg
  obtain ⟨h1, h2, _⟩ := allIndices_getElem shape _ hlt
  refine ⟨h2, ?_⟩
  rw [List.getElem?_map, h1] at hg
  simp only [Option.map_some, Option.some.injEq] at hg
  rw [hg]
  exact hpp

theorem line_draws (pos : P → Prop) (shape : List Nat) (t : List Nat → P) (k d n : Nat) (hn : shape[d]? = some n)
    (v : List Nat → Nat → Nat) (T : Torch P) (hT : DrawRight pos T) (key : List Nat → Nat → List Nat)
    (hv : ∀ p m, v p m = T.draw ((List.range n).map fun j => t (insertDim d j p)) (key p m))
    (drawn : List (List Nat))
    (hdr : drawn = (allIndices (shape.eraseIdx d)).flatMap fun p => (List.range k).map fun m => insertDim d (v p m) p) :
    LineDraws pos shape t k d drawn := by
  subst hdr
  intro x hx hpos
  have hlt : d < shape.length := by
    rcases Nat.lt_or_ge d shape.length with h | h
    · exact h
    · simp [List.getElem?_eq_none h] at hn
  have hp := valid_erase shape x d hx
  obtain ⟨w, hw, hxw, hpw⟩ := hpos
  obtain ⟨jw, hjw, _, hgw⟩ := insert_erase shape w d n hn hw
  obtain ⟨ew, _⟩ := insert_of_same shape x w d n jw hn hx hw hxw hgw
  have hdraw : ∀ m, v (x.eraseIdx d) m < n ∧ pos (t (insertDim d (v (x.eraseIdx d) m) (x.eraseIdx d))) := by
    intro m
    obtain ⟨p, hg, hpp⟩ := hT ((List.range n).map fun j => t (insertDim d j (x.eraseIdx d))) (key (x.eraseIdx d) m)
      ⟨t w, List.mem_map.mpr ⟨jw, by simpa using hjw, by rw [← ew]⟩, hpw⟩
    rw [← hv, get_range] at hg
    split at hg
    · rename_i h
      simp only [Option.some.injEq] at hg
      exact ⟨h, by rw [hg]; exact hpp⟩
    · simp at hg
  have hiff : ∀ y, Valid shape y → SameExcept d x y → (y ∈ ((allIndices (shape.eraseIdx d)).flatMap fun p =>
      (List.range k).map fun m => insertDim d (v p m) p) ↔ ∃ m, m < k ∧ y = insertDim d (v (x.eraseIdx d) m) (x.eraseIdx d)) := by
    intro y hy hxy
    have he := (same_iff d x y shape hx hy hlt).mpr hxy
    simp only [List.mem_flatMap, List.mem_map, List.mem_range, mem_allIndices]
    constructor
    · rintro ⟨p, hp', m, hm, rfl⟩
      have hlp : d ≤ p.length := by
        have := valid_length _ _ hp'
        rw [List.length_eraseIdx, if_pos hlt] at this
        omega
      have hb : (insertDim d (v p m) p).eraseIdx d = p := by
        simp only [insertDim]
        rw [List.eraseIdx_append_of_length_le (by rw [List.length_take]; omega)]
        simp [List.length_take, Nat.min_eq_left hlp]
      rw [hb] at he
      subst he
      exact ⟨m, hm, rfl⟩
    · rintro ⟨m, hm, e⟩
      exact ⟨_, hp, m, hm, e.symm⟩
  refine ⟨(List.range k).map (v (x.eraseIdx d)), by simp, ?_, ?_⟩
  · intro j hj
    obtain ⟨m, _, rfl⟩ := List.mem_map.mp hj
    obtain ⟨a, b, e⟩ := valid_insert shape _ d _ n hn (hdraw m).1 hp
    exact ⟨_, a, (same_iff d x _ shape hx a hlt).mp b.symm, e⟩
  intro y hy hxy
  refine ⟨?_, ?_⟩
  · rw [hiff y hy hxy]
    constructor
    · rintro ⟨m, hm, e⟩
      refine ⟨v (x.eraseIdx d) m, List.mem_map.mpr ⟨m, by simpa using hm, rfl⟩, ?_⟩
      rw [e]
      exact (valid_insert shape _ d _ n hn (hdraw m).1 hp).2.2
    · rintro ⟨j, hj, hyj⟩
      obtain ⟨m, hm, rfl⟩ := List.mem_map.mp hj
      exact ⟨m, by simpa using hm, (insert_of_same shape x y d n _ hn hx hy hxy hyj).1⟩
  · intro h
    obtain ⟨m, _, e⟩ := (hiff y hy hxy).mp h
    rw [e]
    exact (hdraw m).2

theorem flatMap_congr_mem {β γ : Type} (l : List β) (f g : β → List γ) (h : ∀ x ∈ l, f x = g x) : l.flatMap f = l.flatMap g := by
  induction l with
  | nil => rfl
  | cons a l ih => simp only [List.flatMap_cons, h a (by simp), ih (fun x hx => h x (by simp [hx]))]

theorem valid_one (b : Nat) (p : List Nat) (h : Valid [b] p) : ∃ q, p = [q] ∧ q < b := by
  match p, h with
  | [q], h => exact ⟨q, rfl, h.1⟩
  | [], h => simp [Valid] at h
  | _ :: _ :: _, h => simp [Valid] at h

theorem categorical_two (pos : P → Prop) (T : Torch P) (hT : DrawRight pos T) (shape : List Nat) (t : List Nat → P) (k d : Nat)
    (hl : shape.length ≤ 2) (hd : d < shape.length) :
    ∃ drawn, categoricalDim T shape t k d = some drawn ∧ LineDraws pos shape t k d drawn := by
  match shape, d, hl, hd with
  | [a], 0, _, _ =>
    refine ⟨_, ?_, line_draws pos [a] t k 0 a rfl
      (fun p m => T.draw ((List.range a).map fun j => t (insertDim 0 j p)) (m :: p)) T hT (fun p m => m :: p) (fun _ _ => rfl) _ rfl⟩
    simp [categoricalDim, swap, allIndices, inShape, insertDim]
  | [a, b], 0, _, _ =>
    refine ⟨_, ?_, line_draws pos [a, b] t k 0 a rfl
      (fun p m => T.draw ((List.range a).map fun j => t (insertDim 0 j p)) (m :: p)) T hT (fun p m => m :: p) (fun _ _ => rfl) _ rfl⟩
    simp only [categoricalDim]
    simp only [List.getElem?_cons_zero, List.length_cons, List.length_nil, Nat.reduceAdd, Nat.add_one_sub_one, swap, List.getElem?_cons_succ,
      List.set_cons_zero, List.set_cons_succ, List.take_succ_cons, List.take_zero, List.eraseIdx_cons_zero]
    refine Eq.trans (if_pos ?_) ?_
    · simp only [List.all_eq_true]
      intro p hp
      obtain ⟨q, rfl, hq⟩ := valid_one b p ((mem_allIndices _ _).mp hp)
      simp [inShape, hq]
    · congr 1
      apply flatMap_congr_mem
      intro p hp
      obtain ⟨q, rfl, _⟩ := valid_one b p ((mem_allIndices _ _).mp hp)
      simp [insertDim]
  | [a, b], 1, _, _ =>
    refine ⟨_, ?_, line_draws pos [a, b] t k 1 b rfl
      (fun p m => T.draw ((List.range b).map fun j => t (insertDim 1 j p)) (m :: p)) T hT (fun p m => m :: p) (fun _ _ => rfl) _ rfl⟩
    simp only [categoricalDim]
    simp only [List.getElem?_cons_zero, List.length_cons, List.length_nil, Nat.reduceAdd, Nat.add_one_sub_one, swap, List.getElem?_cons_succ,
      List.set_cons_zero, List.set_cons_succ, List.take_succ_cons, List.take_zero, List.eraseIdx_cons_zero, List.eraseIdx_cons_succ]
    refine Eq.trans (if_pos ?_) ?_
    · simp only [List.all_eq_true]
      intro p hp
      obtain ⟨q, rfl, hq⟩ := valid_one a p ((mem_allIndices _ _).mp hp)
      simp [inShape, hq]
    · congr 1
      apply flatMap_congr_mem
      intro p hp
      obtain ⟨q, rfl, _⟩ := valid_one a p ((mem_allIndices _ _).mp hp)
      simp [insertDim]

/-- The first place of a positive number: an allowed way of sampling. -/
def firstPositive : Torch Nat := ⟨fun _ k => List.range k, fun l _ => l.findIdx (fun p => p != 0)⟩

theorem firstPositive_right : DrawRight (fun p => p ≠ 0) firstPositive := by
  intro l key h
  obtain ⟨p, hp, hpos⟩ := h
  have hlt : l.findIdx (fun p => p != 0) < l.length := List.findIdx_lt_length_of_exists ⟨p, hp, by simpa using hpos⟩
  refine ⟨l[l.findIdx (fun p => p != 0)], List.getElem?_eq_getElem hlt, ?_⟩
  have := List.findIdx_getElem (w := hlt)
  simpa using this

/-- The places of a list of numbers from the greatest number on, as many as asked for. -/
def greatest (l : List Nat) (k : Nat) : List Nat :=
  ((List.range l.length).mergeSort (fun i j => decide (l.getD j 0 ≤ l.getD i 0))).take k

theorem greatest_right : TopkRight (fun a b => decide (a < b)) ⟨greatest, fun _ _ => 0⟩ := by
  intro l k hk
  have hperm := List.mergeSort_perm (List.range l.length) (fun i j => decide (l.getD j 0 ≤ l.getD i 0))
  have hnd : ((List.range l.length).mergeSort (fun i j => decide (l.getD j 0 ≤ l.getD i 0))).Nodup := hperm.nodup_iff.mpr List.nodup_range
  have hsort := List.pairwise_mergeSort (le := fun i j => decide (l.getD j 0 ≤ l.getD i 0))
    (by intro a b c; simp only [decide_eq_true_eq]; omega) (by intro a b; simp only [Bool.or_eq_true, decide_eq_true_eq]; omega) (List.range l.length)
  refine ⟨?_, ?_, ?_, ?_⟩
  · simp only [greatest, List.length_take, List.length_mergeSort, List.length_range]
    omega
  · exact hnd.sublist (List.take_sublist _ _)
  · intro i hi
    have := hperm.mem_iff.mp (List.mem_of_mem_take hi)
    simpa using this
  · intro i hi j hj a b ha hb
    have hjl : j < l.length := by
      rcases Nat.lt_or_ge j l.length with h | h
      · exact h
      · rw [List.getElem?_eq_none h] at hb; simp at hb
    have hjm := hperm.mem_iff.mpr (List.mem_range.mpr hjl)
    rw [← List.take_append_drop k ((List.range l.length).mergeSort _)] at hsort hjm
    have hjd := (List.mem_append.mp hjm).resolve_left hj
    have := (List.pairwise_append.mp hsort).2.2 i hi j hjd
    simp only [List.getD_eq_getElem?_getD, ha, hb, Option.getD_some, decide_eq_true_eq] at this
    simp only [decide_eq_false_iff_not]
    omega

theorem forall2_mem_right {β γ : Type} {R : β → γ → Prop} {l : List β} {l' : List γ} (h : List.Forall₂ R l l') : ∀ f ∈ l', ∃ x ∈ l, R x f := by
  induction h with
  | nil => simp
  | cons hr _ ih =>
    intro f hf
    rcases List.mem_cons.mp hf with e | e
    · subst e; exact ⟨_, by simp, hr⟩
    · obtain ⟨x, hx, hR⟩ := ih f e
      exact ⟨x, by simp [hx], hR⟩

theorem process_range (lt : P → P → Bool) (T : Torch P) (m : Mapping α) (c : Config P) (t : List Nat → P) (c0 c1 : Nat) (hm : m.Ok) (hc : c.Ok m.shape)
    (fs : List (Fact P α)) (h : processOne lt T m c t c0 = some (fs, c1)) : c0 ≤ c1 ∧ ∀ f ∈ fs, ∀ n, f.choice = some n → c0 ≤ n ∧ n < c1 := by
  cases ha : chosen T c m.shape t with
  | none => simp [processOne, ha] at h
  | some added =>
    obtain ⟨fs', h', kept, _, hk, hR⟩ := process_spec lt T m c t c0 hm hc added ha
    rw [h'] at h
    simp only [Option.some.injEq, Prod.mk.injEq] at h
    obtain ⟨rfl, rfl⟩ := h
    obtain ⟨hch, _, hle⟩ := choice_spec c m.shape c0 hc
    refine ⟨hle, ?_⟩
    intro f hf n hn
    obtain ⟨x, hx, _, hfc, _⟩ := forall2_mem_right hR f hf
    have hv := ((hk x).mp hx).1
    rw [hfc] at hn
    rcases c with ⟨disj, dim, thr, rk, sd, st, sup⟩
    cases sup with
    | false => simp only [Choices] at hch; rw [hch] at hn; simp at hn
    | true =>
      cases dim with
      | none =>
        cases disj with
        | false => simp only [Choices] at hch; rw [hch] at hn; simp at hn
        | true =>
          obtain ⟨n', a, b, e⟩ := hch
          rw [e] at hn
          cases hn
          exact ⟨a, b⟩
      | some d =>
        obtain ⟨n', a, b, e⟩ := hch.1 x hv
        rw [e] at hn
        cases hn
        exact ⟨a, b⟩

theorem batch_choices (lt : P → P → Bool) (T : Torch P) (m : Mapping α) (c : Config P) (hm : m.Ok) (hc : c.Ok m.shape) :
    ∀ (ts : List (List Nat → P)) (c0 : Nat) (fss : List (List (Fact P α))), processBatch lt T m c ts c0 = some fss →
      (∀ fs ∈ fss, ∀ f ∈ fs, ∀ n, f.choice = some n → c0 ≤ n) ∧
      fss.Pairwise (fun fs gs => ∀ f ∈ fs, ∀ g ∈ gs, ∀ n, f.choice = some n → g.choice ≠ some n)
  | [], _, fss, h => by simp [processBatch] at h; subst h; simp
  | t :: ts, c0, fss, h => by
    simp only [processBatch] at h
    split at h
    · simp at h
    · rename_i fs c1 ho
      simp only [Option.map_eq_some_iff] at h
      obtain ⟨r, hr, rfl⟩ := h
      obtain ⟨hle, hrange⟩ := process_range lt T m c t c0 c1 hm hc fs ho
      obtain ⟨h1, h2⟩ := batch_choices lt T m c hm hc ts c1 r hr
      refine ⟨?_, List.pairwise_cons.mpr ⟨?_, h2⟩⟩
      · intro gs hgs f hf n hn
        rcases List.mem_cons.mp hgs with e | e
        · subst e; exact (hrange f hf n hn).1
        · have := h1 gs e f hf n hn; omega
      · intro gs hgs f hf g hg n hn hgn
        have := (hrange f hf n hn).2
        have := h1 gs hgs g hg n hgn
        omega

/-! ## Dictionaries -/

theorem mapM_get {β γ : Type} (f : β → Option γ) : ∀ (l : List β) (ys : List γ), l.mapM f = some ys →
    ys.length = l.length ∧ ∀ (i : Nat) (b : β), l[i]? = some b → ∃ c, ys[i]? = some c ∧ f b = some c
  | [], ys, h => by simp at h; subst h; simp
  | x :: l, ys, h => by
    rw [List.mapM_cons] at h
    cases hx : f x with
    | none => simp [hx] at h
    | some y =>
      cases hl : l.mapM f with
      | none => simp [hx, hl] at h
      | some r =>
        simp [hx, hl] at h
        subst h
        obtain ⟨h1, h2⟩ := mapM_get f l r hl
        refine ⟨by simp [h1], ?_⟩
        intro i b hi
        cases i with
        | zero => simp at hi; subst hi; exact ⟨y, rfl, hx⟩
        | succ i => simpa using h2 i b (by simpa using hi)

theorem le_foldl_max : ∀ (l : List Nat) (a : Nat), a ≤ l.foldl max a ∧ ∀ x ∈ l, x ≤ l.foldl max a
  | [], a => by simp
  | b :: l, a => by
    obtain ⟨h1, h2⟩ := le_foldl_max l (max a b)
    simp only [List.foldl_cons]
    refine ⟨by omega, ?_⟩
    intro x hx
    rcases List.mem_cons.mp hx with e | e
    · subst e; omega
    · exact h2 x e

theorem foldl_max_le : ∀ (l : List Nat) (a n : Nat), a ≤ n → (∀ x ∈ l, x ≤ n) → l.foldl max a ≤ n
  | [], _, _, h, _ => h
  | b :: l, a, n, h, hl => by
    simp only [List.foldl_cons]
    exact foldl_max_le l _ n (by have := hl b (by simp); omega) (fun x hx => hl x (by simp [hx]))

theorem initDict_spec (m : List (Nat × List α)) (dims : List (List α)) (h : initDict m = some dims) :
    (∀ e ∈ m, e.1 < dims.length) ∧ (∀ i vs, dims[i]? = some vs → m.lookup i = some vs ∧ vs ≠ []) := by
  simp only [initDict] at h
  split at h
  · simp at h
  · split at h
    · simp at h
    · rename_i ds hds
      split at h
      · rename_i hall
        simp only [Option.some.injEq] at h
        subst h
        obtain ⟨hl, hg⟩ := mapM_get _ _ _ hds
        simp only [List.length_range] at hl
        refine ⟨?_, ?_⟩
        · intro e he
          have := (le_foldl_max (m.map Prod.fst) 0).2 e.1 (List.mem_map.mpr ⟨e, he, rfl⟩)
          omega
        · intro i vs hi
          have hlt : i < ds.length := by
            rcases Nat.lt_or_ge i ds.length with h | h
            · exact h
            · rw [List.getElem?_eq_none h] at hi; simp at hi
          obtain ⟨c, hc1, hc2⟩ := hg i i (by rw [List.getElem?_range (by omega)])
          rw [hi] at hc1
          cases hc1
          refine ⟨hc2, ?_⟩
          have := List.all_eq_true.mp hall vs (List.mem_of_getElem? hi)
          rintro rfl
          simp at this
      · simp at h

theorem pick_valid : ∀ (dims : List (List α)) (x : List Nat), Valid (dims.map List.length) x → ∃ l, pick dims x = some l ∧ l.length = dims.length ∧
    ∀ (i j : Nat) (vs : List α), x[i]? = some j → dims[i]? = some vs → ∃ a, l[i]? = some a ∧ vs[j]? = some a
  | [], [], _ => ⟨[], rfl, rfl, by simp⟩
  | [], _ :: _, h => by simp [Valid] at h
  | _ :: _, [], h => by simp [Valid] at h
  | d :: ds, k :: x, h => by
    simp only [List.map_cons, Valid] at h
    obtain ⟨l, hl, hlen, hg⟩ := pick_valid ds x h.2
    have hd := List.getElem?_eq_getElem h.1
    refine ⟨d[k] :: l, by simp only [pick, hd, hl], by simp [hlen], ?_⟩
    intro i j vs hi hv
    cases i with
    | zero => simp at hi hv; subst hi; subst hv; exact ⟨d[k], by simp, hd⟩
    | succ i => simpa using hg i j vs (by simpa using hi) (by simpa using hv)

end Scallop.InputMap
