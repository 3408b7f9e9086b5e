import Verif.Proof.InputDrawn

/-!
# C115: A tensor given to a relation means the facts of its input mapping
-/

namespace Scallop.InputMap

/-- **C115**, indices: the numbers below the size of a tensor and its indices correspond to each other, both ways. -/
theorem c115_indices (shape : List Nat) :
    (∀ x, Valid shape x → ∃ k, k < prod shape ∧ flat shape x = some k ∧ unflat shape k = x) ∧
    (∀ k, k < prod shape → Valid shape (unflat shape k) ∧ flat shape (unflat shape k) = some k) := by
  refine ⟨?_, fun k hk => (allIndices_getElem shape k hk).2⟩
  intro x hx
  obtain ⟨k, hk, hlt, _⟩ := flat_valid shape x hx
  exact ⟨k, hlt, hk, unflat_flat shape x k hx hk⟩

example : Valid [2, 3] [1, 2] ∧ flat [2, 3] [1, 2] = some 5 ∧ unflat [2, 3] 5 = [1, 2] := by
  refine ⟨by simp [Valid], by decide, by decide⟩

/-- **C115**, lists: if nested lists are accepted, the tuple of an index is the one written at that place of the lists. *Partial*: unless
a string is there whose length is that of tuples elsewhere. -/
theorem c115_list_partial (strLen : α → Option Nat) (m : List (Src α)) (shape : List Nat) (items : List (Item α))
    (h : initList strLen m = some (shape, items)) (x : List Nat) (hx : Valid shape x)
    (hs : ∀ a l y, (Src.list m).at x = some (.prim a) → (Src.list m).at y = some (.tuple l) → strLen a ≠ some l.length) :
    ∃ s i, (Src.list m).at x = some s ∧ (Mapping.list shape items).get x = some i ∧ Means s i := by
  obtain ⟨s, i, h1, h2, h3⟩ := initList_at strLen m shape items h x hx
  refine ⟨s, i, h1, h2, ?_⟩
  rcases h3 with h3 | ⟨a, l, y, rfl, hy, hl⟩
  · exact h3
  · exact absurd hl (hs a l y h1 hy)

/-- **C115**, strings: a string among tuples of its length is accepted, and is not made a tuple. -/
theorem c115_string_false : ∃ (m : List (Src String)) (shape : List Nat) (items : List (Item String)),
    initList (fun s => some s.length) m = some (shape, items) ∧ Valid shape [1] ∧
    (Src.list m).at [1] = some (.prim "cd") ∧ (Mapping.list shape items).get [1] = some (.raw "cd") :=
  ⟨[.tuple ["a", "b"], .prim "cd"], [2], [.tuple ["a", "b"], .raw "cd"], by decide +kernel, by simp [Valid], rfl, rfl⟩

/-- **C115**, acceptance: nested lists of any shape without empty dimensions are accepted, with that shape, if the innermost values are
all primitives or all tuples of the same length; the result has an element for every index. -/
theorem c115_accepts (strLen : α → Option Nat) (size : Option Nat) (d : Nat) (shape : List Nat) (m : List (Src α))
    (hp : ∀ e ∈ d :: shape, 0 < e) (hr : Rect (LeafOf size) (d :: shape) (.list m)) :
    ∃ items, initList strLen m = some (d :: shape, items) ∧ (Mapping.list (d :: shape) items).Ok := by
  simp only [Rect] at hr
  have hd := hp d (by simp)
  obtain ⟨items, hi⟩ := levels_rect strLen size shape (depths m + 1) m [m.length] (by omega) (fun e he => hp e (by simp [he])) hr.2 (by omega)
  rw [hr.1] at hi
  have hin : initList strLen m = some (d :: shape, items) := by
    simp only [initList]
    rw [if_neg (by omega), hr.1]
    exact hi
  refine ⟨items, hin, ?_⟩
  intro x hx
  obtain ⟨_, i, _, h2, _⟩ := initList_at strLen m _ items hin x hx
  exact ⟨i, h2⟩

/-- Two rows of three numbers. -/
example : Rect (LeafOf none) [2, 3] (.list [.list [.prim 1, .prim 2, .prim 3], .list [.prim 4, .prim 5, .prim 6]] : Src Nat) ∧
    (∃ items, initList (fun _ => none) [.list [.prim 1, .prim 2, .prim 3], .list [.prim 4, .prim 5, .prim 6]] = some ([2, 3], items) ∧
      (Mapping.list [2, 3] items).get [1, 0] = some (.tuple [4])) := by
  refine ⟨by simp [Rect, LeafOf], [.tuple [1], .tuple [2], .tuple [3], .tuple [4], .tuple [5], .tuple [6]], by decide +kernel, by decide⟩

/-- **C115**, dictionaries: if a dictionary is accepted, its keys are the dimensions, and the tuple of an index consists of the
elements at the places of the index in the lists of the dimensions. -/
theorem c115_dict (m : List (Nat × List α)) (dims : List (List α)) (h : initDict m = some dims) :
    (∀ e ∈ m, e.1 < dims.length) ∧ (∀ i, i < dims.length → ∃ vs, m.lookup i = some vs ∧ vs ≠ [] ∧ (Mapping.dict dims).shape[i]? = some vs.length) ∧
    ∀ x, Valid (Mapping.dict dims).shape x → ∃ l, (Mapping.dict dims).get x = some (.tuple l) ∧ l.length = dims.length ∧
      ∀ i j vs, x[i]? = some j → m.lookup i = some vs → ∃ a, l[i]? = some a ∧ vs[j]? = some a := by
  obtain ⟨h1, h2⟩ := initDict_spec m dims h
  refine ⟨h1, ?_, ?_⟩
  · intro i hi
    obtain ⟨a, b⟩ := h2 i dims[i] (List.getElem?_eq_getElem hi)
    exact ⟨dims[i], a, b, by simp [Mapping.shape, hi]⟩
  · intro x hx
    obtain ⟨l, hl, hlen, hg⟩ := pick_valid dims x hx
    refine ⟨l, by simp [Mapping.get, hl], hlen, ?_⟩
    intro i j vs hi hv
    have hlt : i < dims.length := by
      have := valid_length _ _ hx
      simp only [Mapping.shape, List.length_map] at this
      rcases Nat.lt_or_ge i x.length with h | h
      · omega
      · rw [List.getElem?_eq_none h] at hi; simp at hi
    have hd := List.getElem?_eq_getElem hlt
    have := (h2 i _ hd).1
    rw [hv] at this
    cases this
    exact hg i j _ hi hd

example : initDict [(1, ["a", "b"]), (0, ["x", "y", "z"])] = some [["x", "y", "z"], ["a", "b"]] ∧
    (Mapping.dict [["x", "y", "z"], ["a", "b"]]).get [2, 1] = some (.tuple ["z", "b"]) := by decide +kernel

/-- **C115**, facts: without a bound on the number of facts, a tensor means exactly one fact for each of its indices whose probability is not
below the threshold, in the order of the indices, with the probability at the index, the tuple of the index, and the
choices that the settings ask for. -/
theorem c115_facts (lt : P → P → Bool) (T : Torch P) (m : Mapping α) (c : Config P) (t : List Nat → P) (c0 : Nat) (hm : m.Ok) (hc : c.Ok m.shape)
    (hk : c.retainK = none) :
    ∃ fs c1 ch, processOne lt T m c t c0 = some (fs, c1) ∧ FactsOf m t (fun x => AboveThreshold lt c.retainThreshold (t x)) ch fs ∧
      Choices c.supports c.disjunctive c.disjunctiveDim m.shape c0 c1 ch := by
  obtain ⟨fs, h1, h2⟩ := process_spec lt T m c t c0 hm hc [] (by simp only [chosen, hk])
  exact ⟨fs, _, _, h1, by simpa using h2, (choice_spec c m.shape c0 hc).1⟩

/-- **C115**, the best facts: with a bound, the facts are those of as many indices of greatest probability as the bound says, less those below the
threshold. *Partial*: the bound is not zero. -/
theorem c115_top_partial (lt : P → P → Bool) (T : Torch P) (hT : TopkRight lt T) (m : Mapping α) (c : Config P) (t : List Nat → P) (c0 k : Nat)
    (hm : m.Ok) (hc : c.Ok m.shape) (hk : c.retainK = some k) (hd : c.sampleDim = none) (hs : c.strategy = .top) (h0 : 0 < k) (hle : k ≤ prod m.shape) :
    ∃ fs c1 ch, ∃ top : List (List Nat), processOne lt T m c t c0 = some (fs, c1) ∧
      FactsOf m t (fun x => AboveThreshold lt c.retainThreshold (t x) ∧ x ∈ top) ch fs ∧
      top.length = k ∧ top.Nodup ∧ (∀ x ∈ top, Valid m.shape x) ∧ (∀ x ∈ top, ∀ y, Valid m.shape y → y ∉ top → lt (t x) (t y) = false) ∧
      Choices c.supports c.disjunctive c.disjunctiveDim m.shape c0 c1 ch := by
  obtain ⟨top, ht, h1, h2, h3, h4⟩ := chosen_top lt T hT c m.shape t k hk hd hs hle
  obtain ⟨fs, h5, h6⟩ := process_spec lt T m c t c0 hm hc top ht
  have hne : top ≠ [] := by rintro rfl; simp at h1; omega
  exact ⟨fs, _, _, top, h5, by simpa [hne] using h6, h1, h2, h3, h4, (choice_spec c m.shape c0 hc).1⟩

/-- **C115**, no facts: with the bound zero, all facts are made instead of none, whatever the tensor. -/
theorem c115_top_zero_false (lt : P → P → Bool) (T : Torch P) (hT : TopkRight lt T) (m : Mapping α) (c : Config P) (t : List Nat → P) (c0 : Nat)
    (hm : m.Ok) (hc : c.Ok m.shape) (hk : c.retainK = some 0) (hd : c.sampleDim = none) (hs : c.strategy = .top) :
    ∃ fs c1 ch, processOne lt T m c t c0 = some (fs, c1) ∧ FactsOf m t (fun x => AboveThreshold lt c.retainThreshold (t x)) ch fs := by
  obtain ⟨top, ht, h1, _⟩ := chosen_top lt T hT c m.shape t 0 hk hd hs (by omega)
  obtain ⟨fs, h5, h6⟩ := process_spec lt T m c t c0 hm hc top ht
  have hne : top = [] := List.length_eq_zero_iff.mp h1
  exact ⟨fs, _, _, h5, by simpa [hne] using h6⟩

/-- **C115**, the best facts along a dimension: among the indices that differ in that dimension only, the facts are those of as many of greatest
probability as the bound says, less those below the threshold. *Partial*: the bound is not zero. -/
theorem c115_top_dim_partial (lt : P → P → Bool) (T : Torch P) (hT : TopkRight lt T) (m : Mapping α) (c : Config P) (t : List Nat → P) (c0 k d n : Nat)
    (hm : m.Ok) (hc : c.Ok m.shape) (hk : c.retainK = some k) (hd : c.sampleDim = some d) (hs : c.strategy = .top) (h0 : 0 < k)
    (hn : m.shape[d]? = some n) (hle : k ≤ n) :
    ∃ fs c1 ch, ∃ top : List (List Nat), processOne lt T m c t c0 = some (fs, c1) ∧
      FactsOf m t (fun x => AboveThreshold lt c.retainThreshold (t x) ∧ x ∈ top) ch fs ∧
      (∀ x, Valid m.shape x → ∃ js : List Nat, js.length = k ∧ js.Nodup ∧ (∀ j ∈ js, j < n) ∧
        (∀ y, Valid m.shape y → SameExcept d x y → (y ∈ top ↔ ∃ j ∈ js, y[d]? = some j)) ∧
        ∀ y z, Valid m.shape y → Valid m.shape z → SameExcept d x y → SameExcept d x z → y ∈ top → z ∉ top → lt (t y) (t z) = false) ∧
      Choices c.supports c.disjunctive c.disjunctiveDim m.shape c0 c1 ch := by
  obtain ⟨top, ht, h1⟩ := chosen_top_dim lt T hT c m.shape t k d n hk hd hs hn hle
  obtain ⟨fs, h5, kept, h6, h7, h8⟩ := process_spec lt T m c t c0 hm hc top ht
  refine ⟨fs, _, _, top, h5, ⟨kept, h6, ?_, h8⟩, h1, (choice_spec c m.shape c0 hc).1⟩
  intro x
  rw [h7 x]
  constructor
  · rintro ⟨hv, ha, he | hx⟩
    · obtain ⟨js, hl, _, hj, hi, _⟩ := h1 x hv
      cases js with
      | nil => simp at hl; omega
      | cons j js =>
        exfalso
        obtain ⟨a, b, e⟩ := valid_insert m.shape (x.eraseIdx d) d j n hn (hj j (by simp)) (valid_erase _ _ d hv)
        have hlt : d < m.shape.length := hc.2 d hd
        have := (hi _ a ((same_iff d x _ m.shape hv a hlt).mp b.symm)).mpr ⟨j, by simp, e⟩
        rw [he] at this
        simp at this
    · exact ⟨hv, ha, hx⟩
  · rintro ⟨hv, ha, hx⟩
    exact ⟨hv, ha, Or.inr hx⟩

/-- **C115**, samples: the facts are those of sampled indices, as many samples as asked for, all of positive probability. *Partial*: at least one
sample is asked for. -/
theorem c115_sample_partial (lt : P → P → Bool) (pos : P → Prop) (T : Torch P) (hT : DrawRight pos T) (m : Mapping α) (c : Config P) (t : List Nat → P)
    (c0 k : Nat) (hm : m.Ok) (hc : c.Ok m.shape) (hk : c.retainK = some k) (hd : c.sampleDim = none) (hs : c.strategy = .categorical) (h0 : 0 < k)
    (hp : ∃ x, Valid m.shape x ∧ pos (t x)) :
    ∃ fs c1 ch, ∃ drawn : List (List Nat), processOne lt T m c t c0 = some (fs, c1) ∧
      FactsOf m t (fun x => AboveThreshold lt c.retainThreshold (t x) ∧ x ∈ drawn) ch fs ∧
      drawn.length = k ∧ (∀ x ∈ drawn, Valid m.shape x ∧ pos (t x)) ∧ Choices c.supports c.disjunctive c.disjunctiveDim m.shape c0 c1 ch := by
  obtain ⟨drawn, ht, h1, h2⟩ := chosen_drawn pos T hT c m.shape t k hk hd hs hp
  obtain ⟨fs, h5, h6⟩ := process_spec lt T m c t c0 hm hc drawn ht
  have hne : drawn ≠ [] := by rintro rfl; simp at h1; omega
  exact ⟨fs, _, _, drawn, h5, by simpa [hne] using h6, h1, h2, (choice_spec c m.shape c0 hc).1⟩

/-- **C115**, samples along a dimension: among the indices that differ in that dimension only, as many samples as asked for, all of positive
probability. *Partial*: at most two dimensions, and at least one sample is asked for. -/
theorem c115_sample_dim_partial (lt : P → P → Bool) (pos : P → Prop) (T : Torch P) (hT : DrawRight pos T) (m : Mapping α) (c : Config P) (t : List Nat → P)
    (c0 k d : Nat) (hm : m.Ok) (hc : c.Ok m.shape) (hk : c.retainK = some k) (hd : c.sampleDim = some d) (hs : c.strategy = .categorical)
    (h0 : 0 < k) (hp : ∀ x, Valid m.shape x → ∃ y, Valid m.shape y ∧ SameExcept d x y ∧ pos (t y)) (hl : m.shape.length ≤ 2) :
    ∃ fs c1 ch, ∃ drawn : List (List Nat), processOne lt T m c t c0 = some (fs, c1) ∧
      FactsOf m t (fun x => AboveThreshold lt c.retainThreshold (t x) ∧ x ∈ drawn) ch fs ∧
      LineDraws pos m.shape t k d drawn ∧ Choices c.supports c.disjunctive c.disjunctiveDim m.shape c0 c1 ch := by
  obtain ⟨drawn, ht, h1⟩ := categorical_two pos T hT m.shape t k d hl (hc.2 d hd)
  obtain ⟨fs, h5, kept, h6, h7, h8⟩ := process_spec lt T m c t c0 hm hc drawn (by simp only [chosen, hk, hd, hs, ht])
  refine ⟨fs, _, _, drawn, h5, ⟨kept, h6, ?_, h8⟩, h1, (choice_spec c m.shape c0 hc).1⟩
  intro x
  rw [h7 x]
  constructor
  · rintro ⟨hv, ha, he | hx⟩
    · obtain ⟨js, hjl, hj, hi⟩ := h1 x hv (hp x hv)
      cases js with
      | nil => simp at hjl; omega
      | cons j js =>
        exfalso
        obtain ⟨y, hy, hxy, hyj⟩ := hj j (by simp)
        have := (hi y hy hxy).1.mpr ⟨j, by simp, hyj⟩
        rw [he] at this
        simp at this
    · exact ⟨hv, ha, hx⟩
  · rintro ⟨hv, ha, hx⟩
    exact ⟨hv, ha, Or.inr hx⟩

/-- Positive at one place of each line along the middle dimension. -/
def lines : List Nat → Nat
  | [0, 0, 1] => 1
  | [1, 1, 0] => 1
  | [0, 0, 0] => 1
  | [1, 0, 1] => 1
  | _ => 0

/-- The mapping of three dimensions of two elements each. -/
def cube : Mapping Nat := .dict [[0, 1], [0, 1], [0, 1]]

/-- **C115**, samples along a dimension of a tensor of three: an index of probability zero is sampled, although each line has a positive
probability; and for other shapes there is an exception. -/
theorem c115_sample_dim_false :
    DrawRight (fun p => p ≠ 0) firstPositive ∧
    (∀ x, Valid cube.shape x → ∃ y, Valid cube.shape y ∧ SameExcept 1 x y ∧ lines y ≠ 0) ∧
    (∃ fs c1, processOne (fun a b => decide (a < b)) firstPositive cube { retainK := some 1, sampleDim := some 1, strategy := .categorical } lines 0 = some (fs, c1) ∧
      ∃ f ∈ fs, f.prob = 0) ∧
    processOne (fun a b => decide (a < b)) firstPositive (.dict [[0, 1], [0], [0, 1, 2]])
      { retainK := some 1, sampleDim := some 1, strategy := .categorical } (fun _ => 1) 0 = none := by
  refine ⟨firstPositive_right, ?_, ?_, rfl⟩
  · intro x hx
    match x, hx with
    | [a, b, c], hx =>
      simp only [cube, Mapping.shape, List.map_cons, List.map_nil, List.length_cons, List.length_nil, Valid] at hx
      have same : ∀ j, SameExcept 1 [a, b, c] [a, j, c] := by
        intro j i hi
        match i, hi with
        | 0, _ => rfl
        | 1, h => exact absurd rfl h
        | 2, _ => rfl
        | _ + 3, _ => rfl
      have ha : a = 0 ∨ a = 1 := by omega
      have hc : c = 0 ∨ c = 1 := by omega
      rcases ha with rfl | rfl <;> rcases hc with rfl | rfl
      · exact ⟨_, by simp [cube, Mapping.shape, Valid], same 0, by decide⟩
      · exact ⟨_, by simp [cube, Mapping.shape, Valid], same 0, by decide⟩
      · exact ⟨_, by simp [cube, Mapping.shape, Valid], same 1, by decide⟩
      · exact ⟨_, by simp [cube, Mapping.shape, Valid], same 0, by decide⟩
    | [], hx => simp [cube, Mapping.shape, Valid] at hx
    | [_], hx => simp [cube, Mapping.shape, Valid] at hx
    | [_, _], hx => simp [cube, Mapping.shape, Valid] at hx
    | _ :: _ :: _ :: _ :: _, hx => simp [cube, Mapping.shape, Valid] at hx
  · refine ⟨_, _, rfl, ⟨0, none, .tuple [0, 1, 1]⟩, ?_, rfl⟩
    simp [lines]

/-- **C115**, batches: facts of different items of a batch never belong to the same choice. -/
theorem c115_batch (lt : P → P → Bool) (T : Torch P) (m : Mapping α) (c : Config P) (hm : m.Ok) (hc : c.Ok m.shape) (ts : List (List Nat → P)) (c0 : Nat)
    (fss : List (List (Fact P α))) (h : processBatch lt T m c ts c0 = some fss) (i j : Nat) (hij : i ≠ j) (fs gs : List (Fact P α))
    (hi : fss[i]? = some fs) (hj : fss[j]? = some gs) (f g : Fact P α) (hf : f ∈ fs) (hg : g ∈ gs) (n : Nat) (hn : f.choice = some n) : g.choice ≠ some n := by
  have hp := (batch_choices lt T m c hm hc ts c0 fss h).2
  have hli : i < fss.length := by
    rcases Nat.lt_or_ge i fss.length with h | h
    · exact h
    · rw [List.getElem?_eq_none h] at hi; simp at hi
  have hlj : j < fss.length := by
    rcases Nat.lt_or_ge j fss.length with h | h
    · exact h
    · rw [List.getElem?_eq_none h] at hj; simp at hj
  rw [List.getElem?_eq_getElem hli] at hi
  rw [List.getElem?_eq_getElem hlj] at hj
  cases hi
  cases hj
  rcases Nat.lt_or_gt_of_ne hij with hl | hl
  · exact List.pairwise_iff_getElem.mp hp i j hli hlj hl f hf g hg n hn
  · intro hgn
    exact List.pairwise_iff_getElem.mp hp j i hlj hli hl g hg f hf n hgn hn

/-- **C115**, relations: in a forward function, the facts of two relations given as tensors belong to the same choice, though nothing was
said about them together. -/
theorem c115_forward_false : ∃ (r s : Mapping Nat × Config Nat × (List Nat → Nat)) (fs gs : List (Fact Nat Nat)),
    forwardInputs (fun a b => decide (a < b)) firstPositive [r, s] = some [fs, gs] ∧
    ∃ f ∈ fs, ∃ g ∈ gs, ∃ n, f.choice = some n ∧ g.choice = some n := by
  refine ⟨(.dict [[0, 1]], { disjunctive := true, supports := true }, fun _ => 1),
    (.dict [[0, 1]], { disjunctive := true, supports := true }, fun _ => 1), _, _, rfl, ⟨1, some 0, .tuple [0]⟩, ?_, ⟨1, some 0, .tuple [0]⟩, ?_, 0, rfl, rfl⟩
  · simp
  · simp

/-- The hypotheses are met: digits, exactly one of which is right, with a threshold, the two best of them. -/
example : (Mapping.list [3] [.tuple [7], .tuple [8], .tuple [9]]).Ok ∧
    ({ disjunctive := true, supports := true, retainK := some 2, retainThreshold := some 1 } : Config Nat).Ok [3] := by
  refine ⟨?_, by simp [Config.Ok]⟩
  intro x hx
  obtain ⟨q, rfl, hq⟩ := valid_one 3 x hx
  match q, hq with
  | 0, _ => exact ⟨_, rfl⟩
  | 1, _ => exact ⟨_, rfl⟩
  | 2, _ => exact ⟨_, rfl⟩

/-- The two best of three digits, exactly one of which is right, given that `topk` finds them; and a `topk` that keeps its promise. -/
example : TopkRight (fun a b => decide (a < b)) ⟨greatest, fun _ _ => 0⟩ ∧
    (processOne (fun a b => decide (a < b)) ⟨fun _ _ => [0, 2], fun _ _ => 0⟩ (.list [3] [.tuple [7], .tuple [8], .tuple [9]])
      { disjunctive := true, supports := true, retainK := some 2 } (fun x => match x with | [0] => 5 | [1] => 2 | _ => 3) 4).map
        (fun r => (r.1.map (fun f => (f.prob, f.choice, f.item)), r.2)) = some ([(5, some 4, .tuple [7]), (3, some 4, .tuple [9])], 5) :=
  ⟨greatest_right, by decide +kernel⟩

/-- Each of two pixels is one of two colours: two choices. -/
example : (processOne (fun a b => decide (a < b)) firstPositive (.dict [["left", "right"], ["black", "white"]])
      { disjunctive := true, disjunctiveDim := some 1, supports := true, retainThreshold := some 1 } (fun x => match x with | [0, 1] => 0 | _ => 3) 0).map
        (fun r => (r.1.map (fun f => (f.prob, f.choice, f.item)), r.2)) =
    some ([(3, some 0, .tuple ["left", "black"]), (3, some 1, .tuple ["right", "black"]), (3, some 1, .tuple ["right", "white"])], 2) := by
  decide +kernel

end Scallop.InputMap
