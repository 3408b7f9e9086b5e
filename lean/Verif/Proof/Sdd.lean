import Verif.Model.Sdd
import Verif.Proof.VTree
import Mathlib.Data.List.Lookmap

/-! # Invariant of the SDD builder -/

namespace Scallop

namespace Sdd

open VTree (Sub)

/-- Denotations of nodes: a truth value for every index and world. -/
abbrev Den := Nat → (Nat → Bool) → Bool

/-- The Boolean operation of `apply`. -/
def Op.sem : Op → Bool → Bool → Bool
  | .conjoin, a, b => a && b
  | .disjoin, a, b => a || b

/-- The node is a constant or attached to a vtree node inside `S`. -/
def Within (b : Builder) (S : VTree) (p : Nat) : Prop := p = 0 ∨ p = 1 ∨ ∃ s, Sub s S ∧ b.vmap.lookup p = some s.id

/-- Children of an or-node attached to a branch with sides `l` and `r`. -/
structure ChildrenOK (b : Builder) (D : Den) (l r : VTree) (cs : List (Nat × Nat)) : Prop where
  primes : ∀ c ∈ cs, Within b l c.1
  subs : ∀ c ∈ cs, Within b r c.2
  one : ∀ w, cs.countP (fun c => D c.1 w) = 1

/-- A node (not a constant) attached to the vtree node `s`. -/
def NodeOK (b : Builder) (D : Den) (id : Nat) (s : VTree) : Node → Prop
  | .lit (.pos v) => (∃ i, s = .leaf i v) ∧ ∀ w, D id w = w v
  | .lit (.neg v) => (∃ i, s = .leaf i v) ∧ ∀ w, D id w = !w v
  | .lit .tru => False
  | .lit .fls => False
  | .or cs => ∃ i l r, s = .branch i l r ∧ ChildrenOK b D l r cs ∧ (∀ c ∈ cs, c.1 < id ∧ c.2 < id) ∧
      (∀ w, D id w = cs.any (fun c => D c.1 w && D c.2 w)) ∧ b.shortcut cs = none

structure Inv (T : VTree) (b : Builder) (D : Den) : Prop where
  tree : b.vtree = some T
  uniq : T.Uniq
  fls : b.falseNode = 0
  tru : b.trueNode = 1
  n0 : b.nodes[0]? = some (.lit .fls)
  n1 : b.nodes[1]? = some (.lit .tru)
  d0 : ∀ w, D 0 w = false
  d1 : ∀ w, D 1 w = true
  node : ∀ id node, b.nodes[id]? = some node → 2 ≤ id → ∃ s, Sub s T ∧ b.vmap.lookup id = some s.id ∧ NodeOK b D id s node
  vdom : ∀ id v, b.vmap.lookup id = some v → 2 ≤ id ∧ id < b.nodes.length
  neg : ∀ n m, b.negMap.lookup n = some m → n < b.nodes.length ∧ b.negMap.lookup m = some n ∧ (∀ w, D m w = !D n w) ∧
    b.vmap.lookup m = b.vmap.lookup n
  neg0 : b.negMap.lookup 0 = some 1
  litNeg : ∀ id v, b.nodes[id]? = some (.lit (.pos v)) → ∃ m, b.nodes[m]? = some (.lit (.neg v)) ∧ b.negMap.lookup id = some m
  litNeg' : ∀ id v, b.nodes[id]? = some (.lit (.neg v)) → ∃ m, b.nodes[m]? = some (.lit (.pos v)) ∧ b.negMap.lookup id = some m
  litUniq : ∀ (i j : Nat) (l : Lit), b.nodes[i]? = some (.lit l) → b.nodes[j]? = some (.lit l) → i = j
  pos : ∀ v n, b.posVars.lookup v = some n → b.nodes[n]? = some (.lit (.pos v))
  negv : ∀ v n, b.negVars.lookup v = some n → b.nodes[n]? = some (.lit (.neg v))
  cached : ∀ x y op n, b.cache.lookup (x, y, op) = some n → x < b.nodes.length ∧ y < b.nodes.length ∧ n < b.nodes.length ∧
    (∀ w, D n w = op.sem (D x w) (D y w)) ∧ ∀ S, Sub S T → Within b S x → Within b S y → Within b S n

/-- The builder has only grown. -/
structure Ext (b : Builder) (D : Den) (b' : Builder) (D' : Den) : Prop where
  nodes : b.nodes <+: b'.nodes
  den : ∀ id, id < b.nodes.length → D' id = D id
  vmap : ∀ id, id < b.nodes.length → b'.vmap.lookup id = b.vmap.lookup id
  neg : ∀ n m, b.negMap.lookup n = some m → b'.negMap.lookup n = some m
  posVars : b'.posVars = b.posVars
  negVars : b'.negVars = b.negVars

theorem Ext.refl (b : Builder) (D : Den) : Ext b D b D :=
  ⟨List.prefix_rfl, fun _ _ => rfl, fun _ _ => rfl, fun _ _ h => h, rfl, rfl⟩

theorem Ext.length {b D b' D'} (h : Ext b D b' D') : b.nodes.length ≤ b'.nodes.length := h.nodes.length_le

theorem Ext.trans {b D b' D' b'' D''} (h : Ext b D b' D') (h' : Ext b' D' b'' D'') : Ext b D b'' D'' where
  nodes := h.nodes.trans h'.nodes
  den id hid := (h'.den id (Nat.lt_of_lt_of_le hid h.length)).trans (h.den id hid)
  vmap id hid := (h'.vmap id (Nat.lt_of_lt_of_le hid h.length)).trans (h.vmap id hid)
  neg n m hn := h'.neg n m (h.neg n m hn)
  posVars := h'.posVars.trans h.posVars
  negVars := h'.negVars.trans h.negVars

theorem Ext.get {b D b' D'} (h : Ext b D b' D') {id : Nat} {n : Node} (hn : b.nodes[id]? = some n) : b'.nodes[id]? = some n := by
  obtain ⟨post, e⟩ := h.nodes
  rw [← e, List.getElem?_append_left]
  · exact hn
  · exact (List.getElem?_eq_some_iff.1 hn).1

theorem get_lt {b : Builder} {id : Nat} {n : Node} (hn : b.nodes[id]? = some n) : id < b.nodes.length :=
  (List.getElem?_eq_some_iff.1 hn).1

theorem Inv.len {T b D} (h : Inv T b D) : 2 ≤ b.nodes.length := get_lt h.n1

theorem Inv.within_lt {T b D} (h : Inv T b D) {S : VTree} {p : Nat} (hp : Within b S p) : p < b.nodes.length := by
  have := h.len
  rcases hp with rfl | rfl | ⟨s, -, hs⟩
  · omega
  · omega
  · exact (h.vdom _ _ hs).2

theorem Within.ext {T b D b' D'} {S : VTree} {p : Nat} (hi : Inv T b D) (he : Ext b D b' D') (hp : Within b S p) : Within b' S p := by
  have hlt := hi.within_lt hp
  rcases hp with rfl | rfl | ⟨s, hs, hv⟩
  · exact .inl rfl
  · exact .inr (.inl rfl)
  · exact .inr (.inr ⟨s, hs, (he.vmap p hlt).trans hv⟩)

theorem Within.unext {b D b' D'} {S : VTree} {p : Nat} (he : Ext b D b' D') (hlt : p < b.nodes.length) (hp : Within b' S p) : Within b S p := by
  rcases hp with rfl | rfl | ⟨s, hs, hv⟩
  · exact .inl rfl
  · exact .inr (.inl rfl)
  · exact .inr (.inr ⟨s, hs, (he.vmap p hlt).symm.trans hv⟩)

theorem Within.mono {b : Builder} {S S' : VTree} {p : Nat} (h : Sub S S') (hp : Within b S p) : Within b S' p := by
  rcases hp with rfl | rfl | ⟨s, hs, hv⟩
  · exact .inl rfl
  · exact .inr (.inl rfl)
  · exact .inr (.inr ⟨s, hs.trans h, hv⟩)

theorem ChildrenOK.ext {T b D b' D'} {l r : VTree} {cs : List (Nat × Nat)} (hi : Inv T b D) (he : Ext b D b' D') (h : ChildrenOK b D l r cs) :
    ChildrenOK b' D' l r cs where
  primes c hc := (h.primes c hc).ext hi he
  subs c hc := (h.subs c hc).ext hi he
  one w := by
    rw [← h.one w]
    apply List.countP_congr
    intro c hc
    rw [he.den _ (hi.within_lt (h.primes c hc))]

theorem any_congr' {α : Type} {l : List α} {p q : α → Bool} (h : ∀ x ∈ l, p x = q x) : l.any p = l.any q := by
  induction l with
  | nil => rfl
  | cons a l ih => simp [h a (by simp), ih (fun x hx => h x (by simp [hx]))]

theorem any_ext {T b D b' D'} {l r : VTree} {cs : List (Nat × Nat)} (hi : Inv T b D) (he : Ext b D b' D') (h : ChildrenOK b D l r cs)
    (w : Nat → Bool) : cs.any (fun c => D' c.1 w && D' c.2 w) = cs.any (fun c => D c.1 w && D c.2 w) :=
  any_congr' (fun c hc => by rw [he.den _ (hi.within_lt (h.primes c hc)), he.den _ (hi.within_lt (h.subs c hc))])

/-- With exactly one true prime, a disjunction over the children is its sub. -/
theorem any_none {α : Type} (p s : α → Bool) : ∀ {cs : List α}, cs.countP p = 0 → cs.any (fun c => p c && s c) = false
  | [], _ => rfl
  | c :: cs, h => by
    rw [List.countP_cons] at h
    have h1 : cs.countP p = 0 := by omega
    have h2 : p c = false := by
      by_contra hc
      simp [hc] at h
    simp [h2, any_none p s h1]

theorem any_one {α : Type} (p s : α → Bool) (f : Bool → Bool) : ∀ {cs : List α}, cs.countP p = 1 →
    cs.any (fun c => p c && f (s c)) = f (cs.any (fun c => p c && s c))
  | [], h => by simp at h
  | c :: cs, h => by
    rw [List.countP_cons] at h
    cases hc : p c with
    | true =>
      have h1 : cs.countP p = 0 := by simp [hc] at h; simpa using h
      simp only [List.any_cons, hc, Bool.true_and]
      rw [any_none p s h1, any_none p (fun c => f (s c)) h1]
      simp
    | false =>
      simp only [hc, Bool.false_eq_true, if_false, Nat.add_zero] at h
      simp [hc, any_one p s f h]

/-! ### `add_or_node` -/

theorem lookup_cons_ne {β : Type} {k k' : Nat} {v : β} {l : List (Nat × β)} (h : k ≠ k') : ((k', v) :: l).lookup k = l.lookup k := by
  rw [List.lookup_cons, beq_false_of_ne h]

theorem lookup_cons_eq {β : Type} {k : Nat} {v : β} {l : List (Nat × β)} : ((k, v) :: l).lookup k = some v := by
  simp [List.lookup_cons]

/-- Appending a node without negation. -/
theorem Inv.push {T b D} (h : Inv T b D) {i : Nat} {l r : VTree} (hs : Sub (.branch i l r) T) {cs : List (Nat × Nat)}
    (hc : ChildrenOK b D l r cs) (hn : b.shortcut cs = none) :
    ∃ D', Inv T { b with nodes := b.nodes ++ [.or cs], vmap := (b.nodes.length, i) :: b.vmap } D' ∧
      Ext b D { b with nodes := b.nodes ++ [.or cs], vmap := (b.nodes.length, i) :: b.vmap } D' ∧
      (∀ w, D' b.nodes.length w = cs.any (fun c => D c.1 w && D c.2 w)) := by
  let D' : Den := fun id => if id = b.nodes.length then (fun w => cs.any (fun c => D c.1 w && D c.2 w)) else D id
  let b' : Builder := { b with nodes := b.nodes ++ [.or cs], vmap := (b.nodes.length, i) :: b.vmap }
  have hD : ∀ id, id < b.nodes.length → D' id = D id := fun id hid => by
    have : id ≠ b.nodes.length := by omega
    simp [D', this]
  have hD' : ∀ w, D' b.nodes.length w = cs.any (fun c => D c.1 w && D c.2 w) := fun w => by simp [D']
  have hlen : b'.nodes.length = b.nodes.length + 1 := by simp [b']
  have he : Ext b D b' D' := {
    nodes := ⟨[.or cs], rfl⟩
    den := hD
    vmap := fun id hid => lookup_cons_ne (by omega)
    neg := fun n m hm => hm
    posVars := rfl
    negVars := rfl }
  have hget : ∀ {id : Nat} {node : Node}, b'.nodes[id]? = some node → (b.nodes[id]? = some node ∧ id < b.nodes.length) ∨ (id = b.nodes.length ∧ node = .or cs) := by
    intro id node hg
    have hl : id < b.nodes.length + 1 := by rw [← hlen]; exact get_lt hg
    by_cases e : id = b.nodes.length
    · refine .inr ⟨e, ?_⟩
      subst e
      simpa [b'] using hg.symm
    · have : id < b.nodes.length := by omega
      refine .inl ⟨?_, this⟩
      simpa [b', List.getElem?_append_left this] using hg
  have hlit : ∀ {id : Nat} {x : Lit}, b'.nodes[id]? = some (.lit x) → b.nodes[id]? = some (.lit x) := by
    intro id x hg
    rcases hget hg with ⟨h1, -⟩ | ⟨-, h2⟩
    · exact h1
    · cases h2
  refine ⟨D', ?_, he, hD'⟩
  have hl2 := h.len
  have nl : ∀ n m, b.negMap.lookup n = some m → m < b.nodes.length := fun n m hm => (h.neg m n (h.neg n m hm).2.1).1
  refine {
    tree := h.tree
    uniq := h.uniq
    fls := h.fls
    tru := h.tru
    n0 := he.get h.n0
    n1 := he.get h.n1
    d0 := fun w => by rw [hD 0 (by omega)]; exact h.d0 w
    d1 := fun w => by rw [hD 1 (by omega)]; exact h.d1 w
    node := ?_
    vdom := ?_
    neg := ?_
    neg0 := h.neg0
    litNeg := ?_
    litNeg' := ?_
    litUniq := fun i j x hi hj => h.litUniq i j x (hlit hi) (hlit hj)
    pos := fun v n hv => he.get (h.pos v n hv)
    negv := fun v n hv => he.get (h.negv v n hv)
    cached := ?_ }
  · intro id node hg h2
    rcases hget hg with ⟨h1, hlt⟩ | ⟨rfl, rfl⟩
    · obtain ⟨s, hs', hv, hok⟩ := h.node id node h1 h2
      refine ⟨s, hs', (he.vmap id hlt).trans hv, ?_⟩
      cases node with
      | lit x =>
        cases x with
        | pos v => exact ⟨hok.1, fun w => by rw [hD id hlt]; exact hok.2 w⟩
        | neg v => exact ⟨hok.1, fun w => by rw [hD id hlt]; exact hok.2 w⟩
        | tru => exact hok
        | fls => exact hok
      | or cs' =>
        obtain ⟨i', l', r', hs'', hco, hlts, hden, hsh⟩ := hok
        exact ⟨i', l', r', hs'', hco.ext h he, hlts, fun w => by rw [hD id hlt, any_ext h he hco]; exact hden w, hsh⟩
    · refine ⟨_, hs, lookup_cons_eq, i, l, r, rfl, hc.ext h he, ?_, ?_, hn⟩
      · intro c hcm
        exact ⟨h.within_lt (hc.primes c hcm), h.within_lt (hc.subs c hcm)⟩
      · intro w
        rw [any_ext h he hc, hD']
  · intro id v hv
    by_cases e : id = b.nodes.length
    · subst e; exact ⟨hl2, by rw [hlen]; omega⟩
    · rw [lookup_cons_ne e] at hv
      obtain ⟨h1, h2⟩ := h.vdom id v hv
      exact ⟨h1, by rw [hlen]; omega⟩
  · intro n m hm
    obtain ⟨h1, h2, h3, h4⟩ := h.neg n m hm
    have hm' := nl n m hm
    refine ⟨by rw [hlen]; omega, h2, fun w => by rw [hD n h1, hD m hm']; exact h3 w, ?_⟩
    rw [he.vmap n h1, he.vmap m hm']; exact h4
  · intro id v hg
    obtain ⟨m, h1, h2⟩ := h.litNeg id v (hlit hg)
    exact ⟨m, he.get h1, h2⟩
  · intro id v hg
    obtain ⟨m, h1, h2⟩ := h.litNeg' id v (hlit hg)
    exact ⟨m, he.get h1, h2⟩
  · intro x y op n hcach
    obtain ⟨h1, h2, h3, h4, h5⟩ := h.cached x y op n hcach
    refine ⟨by rw [hlen]; omega, by rw [hlen]; omega, by rw [hlen]; omega, ?_, ?_⟩
    · intro w; rw [hD n h3, hD x h1, hD y h2]; exact h4 w
    · intro S hS hx hy
      exact (h5 S hS (hx.unext he h1) (hy.unext he h2)).ext h he

theorem shortcut_two {b : Builder} {cs : List (Nat × Nat)} {n : Nat} (h : b.shortcut cs = some n) :
    ∃ c0 c1, cs = [c0, c1] ∧ b.negationOf c1.1 = some c0.1 ∧
      ((c0.2 = b.falseNode ∧ c1.2 = b.trueNode ∧ n = c1.1) ∨ (c0.2 = b.trueNode ∧ c1.2 = b.falseNode ∧ n = c0.1) ∨ (c0.2 = c1.2 ∧ n = c0.2)) := by
  match cs, h with
  | [], h => simp [Builder.shortcut] at h
  | [_], h => simp [Builder.shortcut] at h
  | _ :: _ :: _ :: _, h => simp [Builder.shortcut] at h
  | [c0, c1], h =>
    simp only [Builder.shortcut] at h
    refine ⟨c0, c1, rfl, ?_⟩
    split at h
    · rename_i h1
      refine ⟨h1.symm, ?_⟩
      split at h
      · rename_i h2; exact .inl ⟨h2.1, h2.2, (Option.some.inj h).symm⟩
      · split at h
        · rename_i h2; exact .inr (.inl ⟨h2.1, h2.2, (Option.some.inj h).symm⟩)
        · split at h
          · rename_i h2; exact .inr (.inr ⟨h2, (Option.some.inj h).symm⟩)
          · cases h
    · cases h

theorem addOrNode_spec {T b D} (h : Inv T b D) {i : Nat} {l r : VTree} (hs : Sub (.branch i l r) T) {cs : List (Nat × Nat)}
    (hc : ChildrenOK b D l r cs) :
    ∃ D', Inv T (b.addOrNode cs i).2 D' ∧ Ext b D (b.addOrNode cs i).2 D' ∧ Within (b.addOrNode cs i).2 (.branch i l r) (b.addOrNode cs i).1 ∧
      (∀ w, D' (b.addOrNode cs i).1 w = cs.any (fun c => D c.1 w && D c.2 w)) := by
  cases hsh : b.shortcut cs with
  | none =>
    simp only [Builder.addOrNode, hsh]
    obtain ⟨D', h1, h2, h3⟩ := h.push hs hc hsh
    exact ⟨D', h1, h2, .inr (.inr ⟨_, .refl _, lookup_cons_eq⟩), h3⟩
  | some n =>
    simp only [Builder.addOrNode, hsh]
    obtain ⟨c0, c1, rfl, hneg, hcase⟩ := shortcut_two hsh
    rw [h.fls, h.tru] at hcase
    obtain ⟨-, -, hd, -⟩ := h.neg _ _ hneg
    refine ⟨D, h, Ext.refl _ _, ?_, ?_⟩
    · rcases hcase with ⟨-, -, rfl⟩ | ⟨-, -, rfl⟩ | ⟨-, rfl⟩
      · exact (hc.primes c1 (by simp)).mono (.left _ _ (.refl _))
      · exact (hc.primes c0 (by simp)).mono (.left _ _ (.refl _))
      · exact (hc.subs c0 (by simp)).mono (.right _ _ (.refl _))
    · intro w
      rcases hcase with ⟨h0, h1, rfl⟩ | ⟨h0, h1, rfl⟩ | ⟨h0, rfl⟩
      · simp [h0, h1, h.d0, h.d1]
      · simp [h0, h1, h.d0, h.d1]
      · simp only [List.any_cons, List.any_nil, Bool.or_false, h0, hd w]
        cases D c1.1 w <;> simp

/-! ### `negate_node` -/

theorem Inv.neg_const {T b D} (h : Inv T b D) : b.negMap.lookup 1 = some 0 := (h.neg 0 1 h.neg0).2.1

theorem Inv.neg_within {T b D} (h : Inv T b D) {S : VTree} {n m : Nat} (hm : b.negMap.lookup n = some m) (hn : Within b S n) : Within b S m := by
  obtain ⟨-, -, -, hv⟩ := h.neg n m hm
  rcases hn with rfl | rfl | ⟨s, hs, hsv⟩
  · rw [h.neg0] at hm; exact .inr (.inl (Option.some.inj hm).symm)
  · rw [h.neg_const] at hm; exact .inl (Option.some.inj hm).symm
  · exact .inr (.inr ⟨s, hs, hv.trans hsv⟩)

/-- What `negate_node` does on one node. -/
def NegSpec (T : VTree) (b : Builder) (D : Den) (n : Nat) (res : Option (Nat × Builder)) : Prop :=
  ∃ m b' D', res = some (m, b') ∧ Inv T b' D' ∧ Ext b D b' D' ∧ b'.negMap.lookup n = some m ∧
    (∀ k, n < k → k < b.nodes.length → b'.negMap.lookup k = b.negMap.lookup k) ∧ b'.cache = b.cache

theorem negateChildren_spec {T : VTree} {rec : Builder → Nat → Option (Nat × Builder)} {bound : Nat}
    (hrec : ∀ b D n, Inv T b D → n < bound → n < b.nodes.length → NegSpec T b D n (rec b n)) :
    ∀ (cs : List (Nat × Nat)) (b : Builder) (D : Den), Inv T b D → (∀ c ∈ cs, c.2 < bound ∧ c.2 < b.nodes.length) →
      ∃ ds b' D', Builder.negateChildren rec b cs = some (ds, b') ∧ Inv T b' D' ∧ Ext b D b' D' ∧
        List.Forall₂ (fun c d => d.1 = c.1 ∧ b'.negMap.lookup c.2 = some d.2) cs ds ∧
        (∀ k, bound ≤ k → k < b.nodes.length → b'.negMap.lookup k = b.negMap.lookup k) ∧ b'.cache = b.cache := by
  intro cs
  induction cs with
  | nil => intro b D h _; exact ⟨[], b, D, rfl, h, Ext.refl _ _, .nil, fun _ _ _ => rfl, rfl⟩
  | cons c cs ih =>
    intro b D h hc
    obtain ⟨hc1, hc2⟩ := hc c (by simp)
    obtain ⟨m, b1, D1, e1, h1, x1, hm, hf, hca⟩ := hrec b D c.2 h hc1 hc2
    obtain ⟨ds, b2, D2, e2, h2, x2, hall, hf2, hca2⟩ := ih b1 D1 h1 (fun c' hc' => by
      obtain ⟨a, b⟩ := hc c' (by simp [hc'])
      exact ⟨a, Nat.lt_of_lt_of_le b x1.length⟩)
    refine ⟨(c.1, m) :: ds, b2, D2, ?_, h2, x1.trans x2, .cons ⟨rfl, x2.neg _ _ hm⟩ hall, ?_, hca2.trans hca⟩
    · simp only [Builder.negateChildren, e1, e2]
    · intro k hk hk'
      rw [hf2 k hk (Nat.lt_of_lt_of_le hk' x1.length), hf k (by omega) hk']

/-- Recording that two nodes are complementary. -/
theorem Inv.addNeg {T b D} (h : Inv T b D) {n m : Nat} (hn : n < b.nodes.length) (hm : m < b.nodes.length) (hnone : b.negMap.lookup n = none)
    (hmnone : b.negMap.lookup m = none) (hd : ∀ w, D m w = !D n w) (hv : b.vmap.lookup m = b.vmap.lookup n)
    (hfresh : ∀ (id : Nat) (cs : List (Nat × Nat)), b.nodes[id]? = some (.or cs) → ∀ c ∈ cs, c.1 ≠ m) :
    Inv T { b with negMap := (m, n) :: (n, m) :: b.negMap } D := by
  have ne : m ≠ n := by
    rintro rfl
    have := hd (fun _ => true)
    cases h : D m (fun _ => true) <;> simp [h] at this
  have look : ∀ k, ((m, n) :: (n, m) :: b.negMap).lookup k = if k = m then some n else if k = n then some m else b.negMap.lookup k := by
    intro k
    by_cases e : k = m
    · subst e; simp [lookup_cons_eq]
    · rw [lookup_cons_ne e, if_neg e]
      by_cases e' : k = n
      · subst e'; simp [lookup_cons_eq]
      · rw [lookup_cons_ne e', if_neg e']
  have keep : ∀ k k', b.negMap.lookup k = some k' → ((m, n) :: (n, m) :: b.negMap).lookup k = some k' := by
    intro k k' hk
    rw [look, if_neg, if_neg, hk]
    · rintro rfl; rw [hnone] at hk; cases hk
    · rintro rfl; rw [hmnone] at hk; cases hk
  refine { h with node := ?_, neg := ?_, neg0 := keep _ _ h.neg0, litNeg := ?_, litNeg' := ?_ }
  · intro id node hg h2
    obtain ⟨s, hs, hv', hok⟩ := h.node id node hg h2
    refine ⟨s, hs, hv', ?_⟩
    cases node with
    | lit x => cases x <;> exact hok
    | or cs =>
      obtain ⟨i, l, r, e, hco, hlt, hden, hsh⟩ := hok
      refine ⟨i, l, r, e, ⟨hco.primes, hco.subs, hco.one⟩, hlt, hden, ?_⟩
      cases hsh' : Builder.shortcut { b with negMap := (m, n) :: (n, m) :: b.negMap } cs with
      | none => rfl
      | some x =>
        obtain ⟨c0, c1, rfl, hneg, hcase⟩ := shortcut_two hsh'
        have e1 : c0.1 ≠ m := hfresh id _ hg c0 (by simp)
        have e2 : c1.1 ≠ m := hfresh id _ hg c1 (by simp)
        have hneg' : b.negMap.lookup c1.1 = some c0.1 := by
          have : ((m, n) :: (n, m) :: b.negMap).lookup c1.1 = some c0.1 := hneg
          rw [look, if_neg e2] at this
          split at this
          · exact absurd (Option.some.inj this).symm e1
          · exact this
        exfalso
        simp only [Builder.shortcut, Builder.negationOf, hneg', if_true] at hsh
        rcases hcase with ⟨ha, hb, -⟩ | ⟨ha, hb, -⟩ | ⟨ha, -⟩
        · simp only [ha, hb, and_self, if_true] at hsh; cases hsh
        · simp only [ha, hb, h.fls, h.tru] at hsh; simp at hsh
        · simp only [ha] at hsh; split at hsh <;> [cases hsh; (split at hsh <;> simp at hsh)]
  · intro k k' hk
    rw [show Builder.negMap { b with negMap := (m, n) :: (n, m) :: b.negMap } = (m, n) :: (n, m) :: b.negMap from rfl] at hk ⊢
    rw [look] at hk
    split at hk
    · rename_i e; subst e
      obtain rfl := Option.some.inj hk
      refine ⟨hm, ?_, fun w => by rw [hd w]; simp, hv.symm⟩
      rw [look, if_neg (Ne.symm ne), if_pos rfl]
    · split at hk
      · rename_i e; subst e
        obtain rfl := Option.some.inj hk
        exact ⟨hn, by rw [look, if_pos rfl], hd, hv⟩
      · obtain ⟨h1, h2, h3, h4⟩ := h.neg k k' hk
        exact ⟨h1, keep _ _ h2, h3, h4⟩
  · intro id v hg
    obtain ⟨m', h1, h2⟩ := h.litNeg id v hg
    exact ⟨m', h1, keep _ _ h2⟩
  · intro id v hg
    obtain ⟨m', h1, h2⟩ := h.litNeg' id v hg
    exact ⟨m', h1, keep _ _ h2⟩

theorem negateNode_spec {T : VTree} : ∀ (fuel : Nat) (b : Builder) (D : Den) (n : Nat), Inv T b D → n < fuel → n < b.nodes.length →
    NegSpec T b D n (Builder.negateNode fuel b n) := by
  intro fuel
  induction fuel with
  | zero => intro b D n _ h; omega
  | succ fuel ih =>
    intro b D n h hf hn
    cases hneg : b.negMap.lookup n with
    | some m =>
      refine ⟨m, b, D, ?_, h, Ext.refl _ _, hneg, fun _ _ _ => rfl, rfl⟩
      simp only [Builder.negateNode, Builder.negationOf, hneg]
    | none =>
      obtain ⟨node, hg⟩ : ∃ node, b.nodes[n]? = some node := ⟨_, List.getElem?_eq_getElem hn⟩
      have hn2 : 2 ≤ n := by
        by_contra hlt
        have : n = 0 ∨ n = 1 := by omega
        rcases this with rfl | rfl
        · rw [h.neg0] at hneg; cases hneg
        · rw [h.neg_const] at hneg; cases hneg
      obtain ⟨s, hs, hv, hok⟩ := h.node n node hg hn2
      cases node with
      | lit x =>
        cases x with
        | pos v => obtain ⟨m, -, hm⟩ := h.litNeg n v hg; rw [hneg] at hm; cases hm
        | neg v => obtain ⟨m, -, hm⟩ := h.litNeg' n v hg; rw [hneg] at hm; cases hm
        | tru => exact hok.elim
        | fls => exact hok.elim
      | or cs =>
        obtain ⟨i, l, r, rfl, hco, hlt, hden, hsh⟩ := hok
        obtain ⟨ds, b1, D1, e1, h1, x1, hall, hfr, hca⟩ := negateChildren_spec (bound := n)
          (fun b D k hI hk hk' => ih b D k hI (by omega) hk') cs b D h
          (fun c hc => ⟨(hlt c hc).2, h.within_lt (hco.subs c hc)⟩)
        have hg1 := x1.get hg
        have hv1 : b1.vmap.lookup n = some i := (x1.vmap n hn).trans hv
        obtain ⟨s', -, hv', hok'⟩ := h1.node n _ hg1 hn2
        obtain ⟨i', l', r', rfl, hco', -, hden', hsh'⟩ := hok'
        have hco1 := hco.ext h x1
        -- the children of the negation
        have hds : ∀ d ∈ ds, ∃ c ∈ cs, d.1 = c.1 ∧ b1.negMap.lookup c.2 = some d.2 := by
          intro d hd
          clear hco hlt hden hsh e1 hg hg1 hco1 hco' hden' hsh'
          induction hall with
          | nil => cases hd
          | cons hx _ ih' =>
            rcases List.mem_cons.1 hd with rfl | hd
            · exact ⟨_, by simp, hx⟩
            · obtain ⟨c, hc, hcc⟩ := ih' hd
              exact ⟨c, by simp [hc], hcc⟩
        have hcnt : ∀ w, ds.countP (fun c => D1 c.1 w) = cs.countP (fun c => D1 c.1 w) := by
          intro w
          clear hco hlt hden hsh e1 hg hg1 hco1 hco' hden' hsh' hds
          induction hall with
          | nil => rfl
          | cons hx _ ih' => simp only [List.countP_cons, ih', hx.1]
        have hany : ∀ w, ds.any (fun c => D1 c.1 w && D1 c.2 w) = cs.any (fun c => D1 c.1 w && !D1 c.2 w) := by
          intro w
          clear hco hlt hden hsh e1 hg hg1 hco1 hco' hden' hsh' hds hcnt
          induction hall with
          | nil => rfl
          | cons hx _ ih' =>
            obtain ⟨-, -, hd, -⟩ := h1.neg _ _ hx.2
            simp only [List.any_cons, ih', hx.1, hd w]
        have hcod : ChildrenOK b1 D1 l r ds := by
          refine ⟨?_, ?_, fun w => (hcnt w).trans (hco1.one w)⟩
          · intro d hd
            obtain ⟨c, hc, e, -⟩ := hds d hd
            rw [e]; exact hco1.primes c hc
          · intro d hd
            obtain ⟨c, hc, -, e⟩ := hds d hd
            exact h1.neg_within e (hco1.subs c hc)
        have hshd : b1.shortcut ds = none := by
          cases hx : b1.shortcut ds with
          | none => rfl
          | some x =>
            exfalso
            obtain ⟨c0, c1, rfl, hneg1, hcase⟩ := shortcut_two hx
            rw [h1.fls, h1.tru] at hcase
            cases hall with
            | cons ha hall =>
              cases hall with
              | cons hb hall =>
                cases hall
                rename_i a0 a1
                obtain ⟨ha1, ha2⟩ := ha
                obtain ⟨hb1, hb2⟩ := hb
                have hna := (h1.neg _ _ ha2).2.1
                have hnb := (h1.neg _ _ hb2).2.1
                rw [ha1, hb1] at hneg1
                simp only [Builder.shortcut] at hsh'
                rw [hneg1] at hsh'
                simp only [if_true, h1.fls, h1.tru] at hsh'
                rcases hcase with ⟨p, q, -⟩ | ⟨p, q, -⟩ | ⟨p, -⟩
                · rw [p, h1.neg0] at hna; rw [q, h1.neg_const] at hnb
                  have r1 := Option.some.inj hna; have r2 := Option.some.inj hnb
                  simp [← r1, ← r2] at hsh'
                · rw [p, h1.neg_const] at hna; rw [q, h1.neg0] at hnb
                  have r1 := Option.some.inj hna; have r2 := Option.some.inj hnb
                  simp [← r1, ← r2] at hsh'
                · rw [p, hnb] at hna
                  have r1 := Option.some.inj hna
                  rw [r1] at hsh'
                  split at hsh' <;> [cases hsh'; (split at hsh' <;> simp at hsh')]
        obtain ⟨D2, h2, x2, hd2⟩ := h1.push hs hcod hshd
        have hn1 : n < b1.nodes.length := Nat.lt_of_lt_of_le hn x1.length
        have hadd := h2.addNeg (n := n) (m := b1.nodes.length) (by simp; omega) (by simp)
          (by have := hfr n (Nat.le_refl _) hn; exact this.trans hneg)
          (by
            cases hx : b1.negMap.lookup b1.nodes.length with
            | none => rfl
            | some y => exact absurd (h1.neg _ _ hx).1 (Nat.lt_irrefl _))
          (by
            intro w
            rw [hd2, hany w, x2.den n hn1, hden' w]
            exact any_one (fun c : Nat × Nat => D1 c.1 w) (fun c => D1 c.2 w) (fun x => !x) (hco'.one w))
          (by rw [x2.vmap n hn1, hv1]; exact lookup_cons_eq)
          (by
            intro id cs' hg' c hc e
            by_cases e2 : 2 ≤ id
            · obtain ⟨s2, -, -, -, -, -, -, -, hlt2, -, -⟩ := h2.node id _ hg' e2
              have := (hlt2 c hc).1
              have := get_lt hg'
              simp at this
              omega
            · have : id = 0 ∨ id = 1 := by omega
              rcases this with rfl | rfl
              · rw [h2.n0] at hg'; cases hg'
              · rw [h2.n1] at hg'; cases hg')
        refine ⟨b1.nodes.length, _, D2, ?_, hadd, ?_, ?_, ?_, ?_⟩
        · simp only [Builder.negateNode, Builder.negationOf, hneg, hg, e1, hv1, Builder.addOrNode, hshd]
        · refine x1.trans ⟨x2.nodes, x2.den, x2.vmap, ?_, rfl, rfl⟩
          intro k k' hk
          have hkl := (h1.neg _ _ hk).1
          have e1 : k ≠ b1.nodes.length := by omega
          have e2 : k ≠ n := by
            rintro rfl
            rw [hfr k (Nat.le_refl _) hn, hneg] at hk; cases hk
          show List.lookup k ((b1.nodes.length, n) :: (n, b1.nodes.length) :: b1.negMap) = some k'
          rw [lookup_cons_ne e1, lookup_cons_ne e2]; exact hk
        · show List.lookup n ((b1.nodes.length, n) :: (n, b1.nodes.length) :: b1.negMap) = _
          rw [lookup_cons_ne (by omega), lookup_cons_eq]
        · intro k hk hk'
          have := x1.length
          show List.lookup k ((b1.nodes.length, n) :: (n, b1.nodes.length) :: b1.negMap) = _
          rw [lookup_cons_ne (by omega), lookup_cons_ne (by omega)]
          exact hfr k (by omega) hk'
        · exact hca

/-! ### `apply` -/

/-- What `apply` does on operands inside `S`. -/
def ApplyOK (T S : VTree) (b : Builder) (D : Den) (x y : Nat) (op : Op) (res : Option (Nat × Builder)) : Prop :=
  ∃ n b' D', res = some (n, b') ∧ Inv T b' D' ∧ Ext b D b' D' ∧ Within b' S n ∧ ∀ w, D' n w = op.sem (D x w) (D y w)

def ApplySpec (T S : VTree) (ap : Builder.Apply) : Prop :=
  ∀ b D, Inv T b D → ∀ x y op, Within b S x → Within b S y → ApplyOK T S b D x y op (ap b x y op)

theorem countP_congr' {α : Type} {l : List α} {p q : α → Bool} (h : ∀ x ∈ l, p x = q x) : l.countP p = l.countP q :=
  List.countP_congr (fun x hx => by rw [h x hx])

theorem equalInner_spec {T l r : VTree} {ap : Builder.Apply} (hl : ApplySpec T l ap) (hr : ApplySpec T r ap) (op : Op) (c1 : Nat × Nat) :
    ∀ (cs : List (Nat × Nat)) (b : Builder) (D : Den), Inv T b D → Within b l c1.1 → Within b r c1.2 →
      (∀ c ∈ cs, Within b l c.1 ∧ Within b r c.2) →
      ∃ ds b' D', Builder.equalInner ap op c1 b cs = some (ds, b') ∧ Inv T b' D' ∧ Ext b D b' D' ∧
        (∀ d ∈ ds, Within b' l d.1 ∧ Within b' r d.2) ∧
        (∀ w, ds.countP (fun d => D' d.1 w) = if D c1.1 w then cs.countP (fun c => D c.1 w) else 0) ∧
        (∀ w, ds.any (fun d => D' d.1 w && D' d.2 w) = (D c1.1 w && cs.any (fun c => D c.1 w && op.sem (D c1.2 w) (D c.2 w)))) := by
  intro cs
  induction cs with
  | nil => intro b D h _ _ _; exact ⟨[], b, D, rfl, h, Ext.refl _ _, by simp, by simp, by simp⟩
  | cons c cs ih =>
    intro b D h hc1 hc2 hcs
    obtain ⟨ha, hb⟩ := hcs c (by simp)
    obtain ⟨p, b1, D1, e1, h1, x1, w1, d1⟩ := hl b D h c1.1 c.1 .conjoin hc1 ha
    have hrest : ∀ c' ∈ cs, Within b l c'.1 ∧ Within b r c'.2 := fun c' hc' => hcs c' (by simp [hc'])
    have cnt : ∀ {b' : Builder} {D' : Den}, Ext b D b' D' → ∀ w, cs.countP (fun c => D' c.1 w) = cs.countP (fun c => D c.1 w) := by
      intro b' D' hx w
      exact countP_congr' (fun c' hc' => by rw [hx.den _ (h.within_lt (hrest c' hc').1)])
    have any : ∀ {b' : Builder} {D' : Den}, Ext b D b' D' → ∀ w, cs.any (fun c => D' c.1 w && op.sem (D' c1.2 w) (D' c.2 w)) =
        cs.any (fun c => D c.1 w && op.sem (D c1.2 w) (D c.2 w)) := by
      intro b' D' hx w
      exact any_congr' (fun c' hc' => by
        rw [hx.den _ (h.within_lt (hrest c' hc').1), hx.den _ (h.within_lt (hrest c' hc').2), hx.den _ (h.within_lt hc2)])
    by_cases hp : p = 0
    · subst hp
      obtain ⟨ds, b2, D2, e2, h2, x2, w2, c2, a2⟩ := ih b1 D1 h1 (hc1.ext h x1) (hc2.ext h x1)
        (fun c' hc' => ⟨(hrest c' hc').1.ext h x1, (hrest c' hc').2.ext h x1⟩)
      have hz : ∀ w, (D c1.1 w && D c.1 w) = false := fun w => by
        have := d1 w; rw [h1.d0] at this; exact this.symm
      refine ⟨ds, b2, D2, ?_, h2, x1.trans x2, w2, ?_, ?_⟩
      · simp only [Builder.equalInner, e1, h1.fls, if_true, e2]
      · intro w
        rw [c2 w, x1.den _ (h.within_lt hc1), cnt x1 w, List.countP_cons]
        have := hz w
        cases hD : D c1.1 w <;> simp [hD] at this ⊢; simp [this]
      · intro w
        rw [a2 w, x1.den _ (h.within_lt hc1), any x1 w, List.any_cons]
        have := hz w
        cases hD : D c1.1 w <;> simp [hD] at this ⊢; simp [this]
    · obtain ⟨q, b2, D2, e2, h2, x2, w2, d2⟩ := hr b1 D1 h1 c1.2 c.2 op (hc2.ext h x1) (hb.ext h x1)
      have x12 := x1.trans x2
      obtain ⟨ds, b3, D3, e3, h3, x3, w3, c3, a3⟩ := ih b2 D2 h2 (hc1.ext h x12) (hc2.ext h x12)
        (fun c' hc' => ⟨(hrest c' hc').1.ext h x12, (hrest c' hc').2.ext h x12⟩)
      have w13 := (w1.ext h1 x2).ext h2 x3
      have w23 := w2.ext h2 x3
      have dp : ∀ w, D3 p w = (D c1.1 w && D c.1 w) := fun w => by
        rw [x3.den _ (h2.within_lt (w1.ext h1 x2)), x2.den _ (h1.within_lt w1)]; exact d1 w
      have dq : ∀ w, D3 q w = op.sem (D c1.2 w) (D c.2 w) := fun w => by
        rw [x3.den _ (h2.within_lt w2), d2 w, x1.den _ (h.within_lt hc2), x1.den _ (h.within_lt hb)]
      refine ⟨(p, q) :: ds, b3, D3, ?_, h3, x12.trans x3, ?_, ?_, ?_⟩
      · simp only [Builder.equalInner, e1, h1.fls, hp, if_false, e2, e3]
      · intro d hd
        rcases List.mem_cons.1 hd with rfl | hd
        · exact ⟨w13, w23⟩
        · exact w3 d hd
      · intro w
        rw [List.countP_cons, c3 w, x12.den _ (h.within_lt hc1), cnt x12 w, List.countP_cons]
        simp only [dp w]
        cases D c1.1 w <;> simp
      · intro w
        rw [List.any_cons, a3 w, x12.den _ (h.within_lt hc1), any x12 w, List.any_cons]
        simp only [dp w, dq w]
        cases D c1.1 w <;> simp

theorem equalOuter_spec {T l r : VTree} {ap : Builder.Apply} (hl : ApplySpec T l ap) (hr : ApplySpec T r ap) (op : Op)
    (cs2 : List (Nat × Nat)) :
    ∀ (cs1 : List (Nat × Nat)) (b : Builder) (D : Den), Inv T b D → ChildrenOK b D l r cs2 →
      (∀ c ∈ cs1, Within b l c.1 ∧ Within b r c.2) →
      ∃ ds b' D', Builder.equalOuter ap op cs2 b cs1 = some (ds, b') ∧ Inv T b' D' ∧ Ext b D b' D' ∧
        (∀ d ∈ ds, Within b' l d.1 ∧ Within b' r d.2) ∧
        (∀ w, ds.countP (fun d => D' d.1 w) = cs1.countP (fun c => D c.1 w)) ∧
        (∀ w, ds.any (fun d => D' d.1 w && D' d.2 w) =
          cs1.any (fun c => D c.1 w && op.sem (D c.2 w) (cs2.any (fun c => D c.1 w && D c.2 w)))) := by
  intro cs1
  induction cs1 with
  | nil => intro b D h _ _; exact ⟨[], b, D, rfl, h, Ext.refl _ _, by simp, by simp, by simp⟩
  | cons c1 cs1 ih =>
    intro b D h hc2 hcs
    obtain ⟨ha, hb⟩ := hcs c1 (by simp)
    have hrest : ∀ c' ∈ cs1, Within b l c'.1 ∧ Within b r c'.2 := fun c' hc' => hcs c' (by simp [hc'])
    obtain ⟨ds, b1, D1, e1, h1, x1, w1, n1, a1⟩ := equalInner_spec hl hr op c1 cs2 b D h ha hb (fun c hc => ⟨hc2.primes c hc, hc2.subs c hc⟩)
    obtain ⟨es, b2, D2, e2, h2, x2, w2, n2, a2⟩ := ih b1 D1 h1 (hc2.ext h x1)
      (fun c' hc' => ⟨(hrest c' hc').1.ext h x1, (hrest c' hc').2.ext h x1⟩)
    refine ⟨ds ++ es, b2, D2, ?_, h2, x1.trans x2, ?_, ?_, ?_⟩
    · simp only [Builder.equalOuter, e1, e2]
    · intro d hd
      rcases List.mem_append.1 hd with hd | hd
      · exact ⟨(w1 d hd).1.ext h1 x2, (w1 d hd).2.ext h1 x2⟩
      · exact w2 d hd
    · intro w
      have q : ds.countP (fun d => D2 d.1 w) = ds.countP (fun d => D1 d.1 w) :=
        countP_congr' (fun d hd => by rw [x2.den _ (h1.within_lt (w1 d hd).1)])
      have q' : cs1.countP (fun d => D1 d.1 w) = cs1.countP (fun d => D d.1 w) :=
        countP_congr' (fun d hd => by rw [x1.den _ (h.within_lt (hrest d hd).1)])
      rw [List.countP_append, q, n1 w, n2 w, q', List.countP_cons, hc2.one w]
      omega
    · intro w
      have q : ds.any (fun d => D2 d.1 w && D2 d.2 w) = ds.any (fun d => D1 d.1 w && D1 d.2 w) :=
        any_congr' (fun d hd => by rw [x2.den _ (h1.within_lt (w1 d hd).1), x2.den _ (h1.within_lt (w1 d hd).2)])
      have q' : cs1.any (fun c => D1 c.1 w && op.sem (D1 c.2 w) (cs2.any (fun c => D c.1 w && D c.2 w))) =
          cs1.any (fun c => D c.1 w && op.sem (D c.2 w) (cs2.any (fun c => D c.1 w && D c.2 w))) :=
        any_congr' (fun d hd => by rw [x1.den _ (h.within_lt (hrest d hd).1), x1.den _ (h.within_lt (hrest d hd).2)])
      rw [List.any_append, q, a1 w, a2 w, any_ext h x1 hc2 w, q', List.any_cons]
      rw [any_one (fun c : Nat × Nat => D c.1 w) (fun c => D c.2 w) (op.sem (D c1.2 w)) (hc2.one w)]

theorem applyEqual_spec {T : VTree} {i : Nat} {l r : VTree} {ap : Builder.Apply} (hl : ApplySpec T l ap) (hr : ApplySpec T r ap)
    (hs : Sub (.branch i l r) T) {b : Builder} {D : Den} (h : Inv T b D) {x y : Nat} {cs1 cs2 : List (Nat × Nat)} {op : Op}
    (hx : b.nodes[x]? = some (.or cs1)) (hy : b.nodes[y]? = some (.or cs2)) (h1 : ChildrenOK b D l r cs1) (h2 : ChildrenOK b D l r cs2)
    (d1 : ∀ w, D x w = cs1.any (fun c => D c.1 w && D c.2 w)) (d2 : ∀ w, D y w = cs2.any (fun c => D c.1 w && D c.2 w)) :
    ApplyOK T (.branch i l r) b D x y op (Builder.applyEqual ap b x y op i) := by
  obtain ⟨ds, b1, D1, e1, g1, x1, w1, n1, a1⟩ := equalOuter_spec hl hr op cs2 cs1 b D h h2 (fun c hc => ⟨h1.primes c hc, h1.subs c hc⟩)
  have hc : ChildrenOK b1 D1 l r ds := ⟨fun d hd => (w1 d hd).1, fun d hd => (w1 d hd).2, fun w => (n1 w).trans (h1.one w)⟩
  obtain ⟨D2, g2, x2, w2, d⟩ := addOrNode_spec g1 hs hc
  refine ⟨_, _, D2, ?_, g2, x1.trans x2, w2, ?_⟩
  · simp only [Builder.applyEqual, hx, hy, e1]
  · intro w
    rw [d w, a1 w, any_one (fun c : Nat × Nat => D c.1 w) (fun c => D c.2 w) (fun s => op.sem s _) (h1.one w), d1 w, d2 w]

theorem leftLoop_spec {T l : VTree} {ap : Builder.Apply} (hl : ApplySpec T l ap) (n : Nat) :
    ∀ (cs : List (Nat × Nat)) (b : Builder) (D : Den) (r : VTree), Inv T b D → Within b l n → (∀ c ∈ cs, Within b l c.1 ∧ Within b r c.2) →
      ∃ ds b' D', Builder.leftLoop ap n b cs = some (ds, b') ∧ Inv T b' D' ∧ Ext b D b' D' ∧
        (∀ d ∈ ds, Within b' l d.1 ∧ Within b' r d.2) ∧
        (∀ w, ds.countP (fun d => D' d.1 w) = if D n w then cs.countP (fun c => D c.1 w) else 0) ∧
        (∀ w, ds.any (fun d => D' d.1 w && D' d.2 w) = (D n w && cs.any (fun c => D c.1 w && D c.2 w))) := by
  intro cs
  induction cs with
  | nil => intro b D r h _ _; exact ⟨[], b, D, rfl, h, Ext.refl _ _, by simp, by simp, by simp⟩
  | cons c cs ih =>
    intro b D r h hn hcs
    obtain ⟨ha, hb⟩ := hcs c (by simp)
    have hrest : ∀ c' ∈ cs, Within b l c'.1 ∧ Within b r c'.2 := fun c' hc' => hcs c' (by simp [hc'])
    obtain ⟨p, b1, D1, e1, h1, x1, w1, d1⟩ := hl b D h c.1 n .conjoin ha hn
    obtain ⟨ds, b2, D2, e2, h2, x2, w2, n2, a2⟩ := ih b1 D1 r h1 (hn.ext h x1)
      (fun c' hc' => ⟨(hrest c' hc').1.ext h x1, (hrest c' hc').2.ext h x1⟩)
    have cnt : ∀ w, cs.countP (fun c => D1 c.1 w) = cs.countP (fun c => D c.1 w) := fun w =>
      countP_congr' (fun c' hc' => by rw [x1.den _ (h.within_lt (hrest c' hc').1)])
    have any : ∀ w, cs.any (fun c => D1 c.1 w && D1 c.2 w) = cs.any (fun c => D c.1 w && D c.2 w) := fun w =>
      any_congr' (fun c' hc' => by rw [x1.den _ (h.within_lt (hrest c' hc').1), x1.den _ (h.within_lt (hrest c' hc').2)])
    by_cases hp : p = 0
    · subst hp
      have hz : ∀ w, (D c.1 w && D n w) = false := fun w => by
        have := d1 w; rw [h1.d0] at this; exact this.symm
      refine ⟨ds, b2, D2, ?_, h2, x1.trans x2, w2, ?_, ?_⟩
      · simp only [Builder.leftLoop, e1, e2, h1.fls, if_true]
      · intro w
        rw [n2 w, x1.den _ (h.within_lt hn), cnt w, List.countP_cons]
        have := hz w
        cases hD : D n w <;> simp [hD] at this ⊢; simp [this]
      · intro w
        rw [a2 w, x1.den _ (h.within_lt hn), any w, List.any_cons]
        have := hz w
        cases hD : D n w <;> simp [hD] at this ⊢; simp [this]
    · have dp : ∀ w, D2 p w = (D c.1 w && D n w) := fun w => by
        rw [x2.den _ (h1.within_lt w1)]; exact d1 w
      have dq : ∀ w, D2 c.2 w = D c.2 w := fun w => by
        rw [(x1.trans x2).den _ (h.within_lt hb)]
      refine ⟨(p, c.2) :: ds, b2, D2, ?_, h2, x1.trans x2, ?_, ?_, ?_⟩
      · simp only [Builder.leftLoop, e1, e2, h1.fls, hp, if_false]
      · intro d hd
        rcases List.mem_cons.1 hd with rfl | hd
        · exact ⟨w1.ext h1 x2, hb.ext h (x1.trans x2)⟩
        · exact w2 d hd
      · intro w
        rw [List.countP_cons, n2 w, x1.den _ (h.within_lt hn), cnt w, List.countP_cons]
        simp only [dp w]
        cases D n w <;> simp
      · intro w
        rw [List.any_cons, a2 w, x1.den _ (h.within_lt hn), any w, List.any_cons]
        simp only [dp w, dq w]
        cases D n w <;> simp

/-- The absorbing value of an operation. -/
def Op.zeroVal : Op → Bool
  | .conjoin => false
  | .disjoin => true

theorem zero_val {T b D} (h : Inv T b D) (op : Op) (w : Nat → Bool) : D (b.zero op) w = op.zeroVal := by
  cases op
  · simp only [Builder.zero, h.fls, h.d0, Op.zeroVal]
  · simp only [Builder.zero, h.tru, h.d1, Op.zeroVal]

theorem zero_within {T b D} (h : Inv T b D) (op : Op) (S : VTree) : Within b S (b.zero op) := by
  cases op
  · exact .inl h.fls
  · exact .inr (.inl h.tru)

theorem applyLeft_spec {T : VTree} {i : Nat} {l r : VTree} {ap : Builder.Apply} (hl : ApplySpec T l ap)
    (hs : Sub (.branch i l r) T) {b : Builder} {D : Den} (h : Inv T b D) {x y : Nat} {cs : List (Nat × Nat)} {op : Op}
    (hx : Within b l x) (hy : b.nodes[y]? = some (.or cs)) (h2 : ChildrenOK b D l r cs)
    (d2 : ∀ w, D y w = cs.any (fun c => D c.1 w && D c.2 w)) :
    ApplyOK T (.branch i l r) b D x y op (Builder.applyLeft ap (fun b' n => Builder.negateNode (Builder.negateFuel b') b' n) b x y op i) := by
  have hxl := h.within_lt hx
  obtain ⟨m, b1, D1, e1, g1, x1, hm, -, -⟩ := negateNode_spec (Builder.negateFuel b) b D x h
    (by unfold Builder.negateFuel; omega) hxl
  obtain ⟨-, hm', hd, -⟩ := g1.neg _ _ hm
  have hx1 := hx.ext h x1
  have hmw := g1.neg_within hm hx1
  have hco1 := h2.ext h x1
  -- the operand that restricts the primes, and its complement
  obtain ⟨n, hn, nn, hnn, hnw, hnnw, hdn, hdnn⟩ : ∃ n, n = (match op with | .conjoin => x | .disjoin => m) ∧ ∃ nn, b1.negMap.lookup n = some nn ∧
      Within b1 l n ∧ Within b1 l nn ∧ (∀ w, D1 n w = (D x w ^^ op.zeroVal)) ∧ (∀ w, D1 nn w = !D1 n w) := by
    cases op with
    | conjoin => exact ⟨x, rfl, m, hm, hx1, hmw, fun w => by rw [x1.den _ hxl]; simp [Op.zeroVal], hd⟩
    | disjoin =>
      exact ⟨m, rfl, x, hm', hmw, hx1, fun w => by rw [hd w, x1.den _ hxl]; simp [Op.zeroVal], fun w => by rw [hd w]; simp⟩
  obtain ⟨ds, b2, D2, e2, g2, x2, w2, n2, a2⟩ := leftLoop_spec hl n cs b1 D1 r g1 hnw (fun c hc => ⟨hco1.primes c hc, hco1.subs c hc⟩)
  have hzw : Within b2 r (b1.zero op) := (zero_within g1 op r).ext g1 x2
  have hzd : ∀ w, D2 (b1.zero op) w = op.zeroVal := fun w => by
    rw [x2.den _ (g1.within_lt (zero_within g1 op r)), zero_val g1]
  have dnn2 : ∀ w, D2 nn w = !D1 n w := fun w => by rw [x2.den _ (g1.within_lt hnnw)]; exact hdnn w
  have hc : ChildrenOK b2 D2 l r ((nn, b1.zero op) :: ds) := by
    refine ⟨?_, ?_, ?_⟩
    · intro d hd
      rcases List.mem_cons.1 hd with rfl | hd
      · exact hnnw.ext g1 x2
      · exact (w2 d hd).1
    · intro d hd
      rcases List.mem_cons.1 hd with rfl | hd
      · exact hzw
      · exact (w2 d hd).2
    · intro w
      rw [List.countP_cons, n2 w, hco1.one w, dnn2 w]
      cases D1 n w <;> simp
  obtain ⟨D3, g3, x3, w3, d3⟩ := addOrNode_spec g2 hs hc
  refine ⟨_, _, D3, ?_, g3, (x1.trans x2).trans x3, w3, ?_⟩
  · cases op
    · simp only at hn
      subst hn
      simp only [Builder.applyLeft, e1, Builder.negationOf, hnn, x1.get hy, e2]
    · simp only at hn
      subst hn
      simp only [Builder.applyLeft, e1, Builder.negationOf, hnn, x1.get hy, e2]
  · intro w
    rw [d3 w, List.any_cons, a2 w, any_ext h x1 h2 w, ← d2 w]
    simp only [dnn2 w, hzd w, hdn w]
    cases op <;> simp only [Op.sem, Op.zeroVal] <;> cases D x w <;> simp

theorem rightLoop_spec {T l r : VTree} {ap : Builder.Apply} (hr : ApplySpec T r ap) (y : Nat) (op : Op) :
    ∀ (cs : List (Nat × Nat)) (b : Builder) (D : Den), Inv T b D → Within b r y → (∀ c ∈ cs, Within b l c.1 ∧ Within b r c.2) →
      ∃ ds b' D', Builder.rightLoop ap y op b cs = some (ds, b') ∧ Inv T b' D' ∧ Ext b D b' D' ∧
        (∀ d ∈ ds, Within b' l d.1 ∧ Within b' r d.2) ∧
        (∀ w, ds.countP (fun d => D' d.1 w) = cs.countP (fun c => D c.1 w)) ∧
        (∀ w, ds.any (fun d => D' d.1 w && D' d.2 w) = cs.any (fun c => D c.1 w && op.sem (D c.2 w) (D y w))) := by
  intro cs
  induction cs with
  | nil => intro b D h _ _; exact ⟨[], b, D, rfl, h, Ext.refl _ _, by simp, by simp, by simp⟩
  | cons c cs ih =>
    intro b D h hy hcs
    obtain ⟨ha, hb⟩ := hcs c (by simp)
    have hrest : ∀ c' ∈ cs, Within b l c'.1 ∧ Within b r c'.2 := fun c' hc' => hcs c' (by simp [hc'])
    obtain ⟨s, b1, D1, e1, h1, x1, w1, d1⟩ := hr b D h c.2 y op hb hy
    obtain ⟨ds, b2, D2, e2, h2, x2, w2, n2, a2⟩ := ih b1 D1 h1 (hy.ext h x1)
      (fun c' hc' => ⟨(hrest c' hc').1.ext h x1, (hrest c' hc').2.ext h x1⟩)
    have cnt : ∀ w, cs.countP (fun c => D1 c.1 w) = cs.countP (fun c => D c.1 w) := fun w =>
      countP_congr' (fun c' hc' => by rw [x1.den _ (h.within_lt (hrest c' hc').1)])
    have any : ∀ w, cs.any (fun c => D1 c.1 w && op.sem (D1 c.2 w) (D1 y w)) = cs.any (fun c => D c.1 w && op.sem (D c.2 w) (D y w)) := fun w =>
      any_congr' (fun c' hc' => by
        rw [x1.den _ (h.within_lt (hrest c' hc').1), x1.den _ (h.within_lt (hrest c' hc').2), x1.den _ (h.within_lt hy)])
    refine ⟨(c.1, s) :: ds, b2, D2, ?_, h2, x1.trans x2, ?_, ?_, ?_⟩
    · simp only [Builder.rightLoop, e1, e2]
    · intro d hd
      rcases List.mem_cons.1 hd with rfl | hd
      · exact ⟨ha.ext h (x1.trans x2), w1.ext h1 x2⟩
      · exact w2 d hd
    · intro w
      rw [List.countP_cons, n2 w, cnt w, List.countP_cons]
      simp only [(x1.trans x2).den _ (h.within_lt ha)]
    · intro w
      rw [List.any_cons, a2 w, any w, List.any_cons]
      simp only [(x1.trans x2).den _ (h.within_lt ha), x2.den _ (h1.within_lt w1), d1 w]

theorem applyRight_spec {T : VTree} {i : Nat} {l r : VTree} {ap : Builder.Apply} (hr : ApplySpec T r ap)
    (hs : Sub (.branch i l r) T) {b : Builder} {D : Den} (h : Inv T b D) {x y : Nat} {cs : List (Nat × Nat)} {op : Op}
    (hy : Within b r y) (hx : b.nodes[x]? = some (.or cs)) (h1 : ChildrenOK b D l r cs)
    (d1 : ∀ w, D x w = cs.any (fun c => D c.1 w && D c.2 w)) :
    ApplyOK T (.branch i l r) b D x y op (Builder.applyRight ap b x y op i) := by
  obtain ⟨ds, b1, D1, e1, g1, x1, w1, n1, a1⟩ := rightLoop_spec (l := l) hr y op cs b D h hy (fun c hc => ⟨h1.primes c hc, h1.subs c hc⟩)
  have hc : ChildrenOK b1 D1 l r ds := ⟨fun d hd => (w1 d hd).1, fun d hd => (w1 d hd).2, fun w => (n1 w).trans (h1.one w)⟩
  obtain ⟨D2, g2, x2, w2, d2⟩ := addOrNode_spec g1 hs hc
  refine ⟨_, _, D2, ?_, g2, x1.trans x2, w2, ?_⟩
  · simp only [Builder.applyRight, hx, e1]
  · intro w
    rw [d2 w, a1 w, any_one (fun c : Nat × Nat => D c.1 w) (fun c => D c.2 w) (fun s => op.sem s _) (h1.one w), d1 w]

theorem applyDisjoint_spec {T : VTree} {i : Nat} {l r : VTree} {ap : Builder.Apply} (hr : ApplySpec T r ap)
    (hs : Sub (.branch i l r) T) {b : Builder} {D : Den} (h : Inv T b D) {x y : Nat} {op : Op} (hx : Within b l x) (hy : Within b r y) :
    ApplyOK T (.branch i l r) b D x y op (Builder.applyDisjoint ap (fun b' n => Builder.negateNode (Builder.negateFuel b') b' n) b x y op i) := by
  have hxl := h.within_lt hx
  have hyl := h.within_lt hy
  obtain ⟨m, b1, D1, e1, g1, x1, hm, -, -⟩ := negateNode_spec (Builder.negateFuel b) b D x h
    (by unfold Builder.negateFuel; omega) hxl
  obtain ⟨-, hm', hd, -⟩ := g1.neg _ _ hm
  have hx1 := hx.ext h x1
  have hmw := g1.neg_within hm hx1
  have hy1 := hy.ext h x1
  obtain ⟨s1, b2, D2, e2, g2, x2, w2, d2⟩ := hr b1 D1 g1 y 1 op hy1 (.inr (.inl rfl))
  obtain ⟨s2, b3, D3, e3, g3, x3, w3, d3⟩ := hr b2 D2 g2 y 0 op (hy1.ext g1 x2) (.inl rfl)
  have x23 := x2.trans x3
  have dx : ∀ w, D3 x w = D x w := fun w => by rw [(x1.trans x23).den _ hxl]
  have dm : ∀ w, D3 m w = !D x w := fun w => by rw [x23.den _ (g1.within_lt hmw), hd w, x1.den _ hxl]
  have ds1 : ∀ w, D3 s1 w = op.sem (D y w) true := fun w => by
    rw [x3.den _ (g2.within_lt w2), d2 w, x1.den _ hyl, g1.d1]
  have ds2 : ∀ w, D3 s2 w = op.sem (D y w) false := fun w => by
    rw [d3 w, (x1.trans x2).den _ hyl, g2.d0]
  have hc : ChildrenOK b3 D3 l r [(x, s1), (m, s2)] := by
    refine ⟨?_, ?_, ?_⟩
    · intro d hd
      simp only [List.mem_cons, List.not_mem_nil, or_false] at hd
      rcases hd with rfl | rfl
      · exact hx1.ext g1 x23
      · exact hmw.ext g1 x23
    · intro d hd
      simp only [List.mem_cons, List.not_mem_nil, or_false] at hd
      rcases hd with rfl | rfl
      · exact w2.ext g2 x3
      · exact w3
    · intro w
      simp only [List.countP_cons, List.countP_nil, dx w, dm w]
      cases D x w <;> simp
  obtain ⟨D4, g4, x4, w4, d4⟩ := addOrNode_spec g3 hs hc
  refine ⟨_, _, D4, ?_, g4, (x1.trans x23).trans x4, w4, ?_⟩
  · simp only [Builder.applyDisjoint, e1, g1.tru, e2, g2.fls, e3]
  · intro w
    rw [d4 w]
    simp only [List.any_cons, List.any_nil, dx w, dm w, ds1 w, ds2 w]
    cases op <;> simp only [Op.sem] <;> cases D x w <;> cases D y w <;> rfl

/-- Recording a result in the cache. -/
theorem Inv.addCache {T b D} (h : Inv T b D) {x y : Nat} {op : Op} {n : Nat} (hx : x < b.nodes.length) (hy : y < b.nodes.length)
    (hn : n < b.nodes.length) (hd : ∀ w, D n w = op.sem (D x w) (D y w))
    (hw : ∀ S, Sub S T → Within b S x → Within b S y → Within b S n) : Inv T { b with cache := ((x, y, op), n) :: b.cache } D := by
  refine { h with node := ?_, cached := ?_ }
  · intro id node hg h2
    obtain ⟨s, hs, hv, hok⟩ := h.node id node hg h2
    refine ⟨s, hs, hv, ?_⟩
    cases node with
    | lit q => cases q <;> exact hok
    | or cs =>
      obtain ⟨i, l, r, e, hco, hlt, hden, hsh⟩ := hok
      exact ⟨i, l, r, e, ⟨hco.primes, hco.subs, hco.one⟩, hlt, hden, hsh⟩
  intro x' y' op' n' hl
  by_cases e : (x', y', op') = (x, y, op)
  · cases e
    have : n = n' := by simpa [List.lookup_cons] using hl
    subst this
    exact ⟨hx, hy, hn, hd, hw⟩
  · have : b.cache.lookup (x', y', op') = some n' := by
      have hl' : List.lookup (x', y', op') (((x, y, op), n) :: b.cache) = some n' := hl
      rw [List.lookup_cons, beq_false_of_ne e] at hl'
      exact hl'
    exact h.cached x' y' op' n' this

theorem Op.sem_comm (op : Op) (a b : Bool) : op.sem a b = op.sem b a := by
  cases op <;> cases a <;> cases b <;> rfl

/-- A node that is not a constant. -/
theorem Inv.at {T b D} (h : Inv T b D) {S : VTree} {x : Nat} (hS : Sub S T) (hx : Within b S x) (h0 : x ≠ 0) (h1 : x ≠ 1) :
    ∃ s node, Sub s S ∧ b.vmap.lookup x = some s.id ∧ b.nodes[x]? = some node ∧ NodeOK b D x s node := by
  have hlt := h.within_lt hx
  rcases hx with e | e | ⟨s, hs, hv⟩
  · exact absurd e h0
  · exact absurd e h1
  · obtain ⟨s', hs', hv', hok⟩ := h.node x _ (List.getElem?_eq_getElem hlt) (by omega)
    rw [hv] at hv'
    have := hs'.eq_of_id (hs.trans hS) h.uniq (Option.some.inj hv').symm
    subst this
    exact ⟨s', _, hs, hv, List.getElem?_eq_getElem hlt, hok⟩

/-- The dispatch of `apply` on nodes in the order of their positions. -/
theorem dispatch_spec {T S : VTree} {ap : Builder.Apply} (hap : ∀ S', Sub S' T → S'.inOrder.length < S.inOrder.length → ApplySpec T S' ap)
    (hS : Sub S T) {b : Builder} {D : Den} (h : Inv T b D) {x y : Nat} {op : Op} {sx sy : VTree} {nx ny : Node} (hxs : Sub sx S) (hys : Sub sy S)
    (hxv : b.vmap.lookup x = some sx.id) (hyv : b.vmap.lookup y = some sy.id) (hxn : b.nodes[x]? = some nx) (hyn : b.nodes[y]? = some ny)
    (hx : NodeOK b D x sx nx) (hy : NodeOK b D y sy ny) (hne : x ≠ y) (hneg : b.negMap.lookup y ≠ some x) {px py : Nat}
    (hpx : T.position sx.id = some px) (hpy : T.position sy.id = some py) (hle : px ≤ py) :
    ∃ kind lca, T.lowestCommonAncestor sx.id sy.id = some (kind, lca) ∧
      ∃ L, Sub L T ∧ (∀ S', Sub S' T → Sub sx S' → Sub sy S' → Sub L S') ∧
      ApplyOK T L b D x y op (match kind with
        | .equal => Builder.applyEqual ap b x y op lca
        | .left => Builder.applyLeft ap (fun b' n => Builder.negateNode (Builder.negateFuel b') b' n) b x y op lca
        | .right => Builder.applyRight ap b x y op lca
        | .disjoint => Builder.applyDisjoint ap (fun b' n => Builder.negateNode (Builder.negateFuel b') b' n) b x y op lca) := by
  have hxT := hxs.trans hS
  have hyT := hys.trans hS
  have sides : ∀ {i : Nat} {l r : VTree}, Sub (.branch i l r) S → ApplySpec T l ap ∧ ApplySpec T r ap := by
    intro i l r hb
    have hlen := hb.length_le
    simp only [VTree.inOrder, List.length_append, List.length_cons] at hlen
    exact ⟨hap l ((VTree.Sub.left _ _ (.refl _)).trans (hb.trans hS)) (by omega), hap r ((VTree.Sub.right _ _ (.refl _)).trans (hb.trans hS)) (by omega)⟩
  have hchild : ∀ {z : Nat} {nz : Node} {i : Nat} {l r : VTree}, NodeOK b D z (.branch i l r) nz →
      ∃ cs, nz = .or cs ∧ ChildrenOK b D l r cs ∧ ∀ w, D z w = cs.any (fun c => D c.1 w && D c.2 w) := by
    intro z nz i l r hz
    cases nz with
    | lit q =>
      cases q with
      | pos v => obtain ⟨⟨j, e⟩, -⟩ := hz; cases e
      | neg v => obtain ⟨⟨j, e⟩, -⟩ := hz; cases e
      | tru => exact hz.elim
      | fls => exact hz.elim
    | or cs =>
      obtain ⟨i', l', r', e, hc, -, hd, -⟩ := hz
      cases e
      exact ⟨cs, rfl, hc, hd⟩
  rcases VTree.lca_spec h.uniq hxT hyT hpx hpy hle with ⟨rfl, e⟩ | ⟨i, l, r, rfl, hsub, e⟩ | ⟨i, l, r, rfl, hsub, e⟩ | ⟨i, l, r, hL, h1, h2, e⟩
  · -- the same vtree node
    refine ⟨_, _, e, sx, hxT, fun S' _ g _ => g, ?_⟩
    cases sx with
    | leaf i v =>
      exfalso
      cases nx with
      | or cs => obtain ⟨_, _, _, e', -⟩ := hx; cases e'
      | lit p =>
        cases ny with
        | or cs => obtain ⟨_, _, _, e', -⟩ := hy; cases e'
        | lit q =>
          cases p with
          | tru => exact hx
          | fls => exact hx
          | pos vp =>
            obtain ⟨⟨j, e1⟩, -⟩ := hx
            cases q with
            | tru => exact hy
            | fls => exact hy
            | pos vq =>
              obtain ⟨⟨j', e2⟩, -⟩ := hy
              cases e1; cases e2
              exact hne (h.litUniq _ _ _ hxn hyn)
            | neg vq =>
              obtain ⟨⟨j', e2⟩, -⟩ := hy
              cases e1; cases e2
              obtain ⟨m, hm, hm'⟩ := h.litNeg' _ _ hyn
              rw [h.litUniq _ _ _ hm hxn] at hm'
              exact hneg hm'
          | neg vp =>
            obtain ⟨⟨j, e1⟩, -⟩ := hx
            cases q with
            | tru => exact hy
            | fls => exact hy
            | neg vq =>
              obtain ⟨⟨j', e2⟩, -⟩ := hy
              cases e1; cases e2
              exact hne (h.litUniq _ _ _ hxn hyn)
            | pos vq =>
              obtain ⟨⟨j', e2⟩, -⟩ := hy
              cases e1; cases e2
              obtain ⟨m, hm, hm'⟩ := h.litNeg _ _ hyn
              rw [h.litUniq _ _ _ hm hxn] at hm'
              exact hneg hm'
    | branch i l r =>
      obtain ⟨cs1, rfl, c1, d1⟩ := hchild hx
      obtain ⟨cs2, rfl, c2, d2⟩ := hchild hy
      obtain ⟨sl, sr⟩ := sides hxs
      exact applyEqual_spec sl sr hxT h hxn hyn c1 c2 d1 d2
  · -- x below the left side of y
    obtain ⟨cs, rfl, c2, d2⟩ := hchild hy
    exact ⟨_, _, e, _, hyT, fun S' _ _ g => g, applyLeft_spec (sides hys).1 hyT h (.inr (.inr ⟨_, hsub, hxv⟩)) hyn c2 d2⟩
  · obtain ⟨cs, rfl, c1, d1⟩ := hchild hx
    exact ⟨_, _, e, _, hxT, fun S' _ g _ => g, applyRight_spec (sides hxs).2 hxT h (.inr (.inr ⟨_, hsub, hyv⟩)) hxn c1 d1⟩
  · have hLS := VTree.Sub.contains h.uniq hL h1 h2 hS hxs hys
    exact ⟨_, _, e, _, hL, fun S' hS' g g' => VTree.Sub.contains h.uniq hL h1 h2 hS' g g',
      applyDisjoint_spec (sides hLS).2 hL h (.inr (.inr ⟨_, h1, hxv⟩)) (.inr (.inr ⟨_, h2, hyv⟩))⟩

theorem apply_spec {T : VTree} : ∀ (fuel : Nat) (S : VTree), Sub S T → S.inOrder.length ≤ fuel → ApplySpec T S (Builder.apply (fuel + 1)) := by
  intro fuel
  induction fuel with
  | zero => intro S _ hf; have := S.inOrder_pos; omega
  | succ fuel ih =>
    intro S hS hf b D h x y op hx hy
    have hxl := h.within_lt hx
    have hyl := h.within_lt hy
    by_cases c1 : x = y
    · subst c1
      exact ⟨x, b, D, by simp [Builder.apply], h, Ext.refl _ _, hx, fun w => by cases op <;> simp [Op.sem]⟩
    by_cases c2 : some x = b.negationOf y
    · refine ⟨b.zero op, b, D, by simp only [Builder.apply, c1, c2, if_true, if_false], h, Ext.refl _ _, zero_within h op S, fun w => ?_⟩
      obtain ⟨-, -, hd, -⟩ := h.neg _ _ c2.symm
      rw [zero_val h, hd w]
      cases op <;> cases D y w <;> rfl
    by_cases c3 : x = b.zero op ∨ y = b.zero op
    · refine ⟨b.zero op, b, D, by simp only [Builder.apply, c1, c2, c3, if_true, if_false], h, Ext.refl _ _, zero_within h op S, fun w => ?_⟩
      rcases c3 with rfl | rfl
      · rw [zero_val h]; cases op <;> simp [Op.sem, Op.zeroVal]
      · rw [zero_val h]; cases op <;> simp [Op.sem, Op.zeroVal]
    have hone : ∀ w, D (b.one op) w = !op.zeroVal := fun w => by
      cases op
      · simp only [Builder.one, h.tru, h.d1, Op.zeroVal, Bool.not_false]
      · simp only [Builder.one, h.fls, h.d0, Op.zeroVal, Bool.not_true]
    by_cases c4 : x = b.one op
    · refine ⟨y, b, D, by rw [Builder.apply, if_neg c1, if_neg c2, if_neg c3, if_pos c4], h, Ext.refl _ _, hy, fun w => ?_⟩
      rw [c4, hone]; cases op <;> simp [Op.sem, Op.zeroVal]
    by_cases c5 : y = b.one op
    · refine ⟨x, b, D, by rw [Builder.apply, if_neg c1, if_neg c2, if_neg c3, if_neg c4, if_pos c5], h, Ext.refl _ _, hx, fun w => ?_⟩
      rw [c5, hone]; cases op <;> simp [Op.sem, Op.zeroVal]
    cases hc : b.cache.lookup (x, y, op) with
    | some n =>
      obtain ⟨-, -, -, h4, h5⟩ := h.cached x y op n hc
      exact ⟨n, b, D, by simp only [Builder.apply, c1, c2, c3, c4, c5, if_false, hc], h, Ext.refl _ _, h5 S hS hx hy, h4⟩
    | none =>
      have consts : ∀ z, z ≠ b.zero op → z ≠ b.one op → z ≠ 0 ∧ z ≠ 1 := by
        intro z h1 h2
        cases op
        · simp only [Builder.zero, Builder.one, h.fls, h.tru] at h1 h2; exact ⟨h1, h2⟩
        · simp only [Builder.zero, Builder.one, h.fls, h.tru] at h1 h2; exact ⟨h2, h1⟩
      have hx01 := consts x (fun e => c3 (.inl e)) c4
      have hy01 := consts y (fun e => c3 (.inr e)) c5
      obtain ⟨sx, nx, hxs, hxv, hxn, hxok⟩ := h.at hS hx hx01.1 hx01.2
      obtain ⟨sy, ny, hys, hyv, hyn, hyok⟩ := h.at hS hy hy01.1 hy01.2
      obtain ⟨px, hpx⟩ := (hxs.trans hS).position h.uniq
      obtain ⟨py, hpy⟩ := (hys.trans hS).position h.uniq
      have hap : ∀ S', Sub S' T → S'.inOrder.length < S.inOrder.length → ApplySpec T S' (Builder.apply (fuel + 1)) :=
        fun S' g1 g2 => ih S' g1 (by omega)
      have inS : ∀ {L : VTree}, Sub L T → (∀ S', Sub S' T → Sub sx S' → Sub sy S' → Sub L S') → ∀ {b' : Builder} {D' : Den} {n : Nat},
          Ext b D b' D' → Within b' L n → ∀ S', Sub S' T → Within b' S' x → Within b' S' y → Within b' S' n := by
        intro L _ hmin b' D' n hext hn S' hS' g1 g2
        have sub : ∀ {z : Nat} {s : VTree}, Sub s T → b.vmap.lookup z = some s.id → z < b.nodes.length → z ≠ 0 ∧ z ≠ 1 → Within b' S' z → Sub s S' := by
          intro z s hs hz hzl hz01 g
          rcases g with e | e | ⟨s', hs', hv⟩
          · exact absurd e hz01.1
          · exact absurd e hz01.2
          · rw [hext.vmap z hzl, hz] at hv
            rw [hs.eq_of_id (hs'.trans hS') h.uniq (Option.some.inj hv)]; exact hs'
        exact hn.mono (hmin S' hS' (sub (hxs.trans hS) hxv hxl hx01 g1) (sub (hys.trans hS) hyv hyl hy01 g2))
      by_cases hsw : py < px
      · have c2' : b.negMap.lookup x ≠ some y := fun e => c2 (h.neg _ _ e).2.1.symm
        obtain ⟨kind, lca, e, L, hL, hmin, n, b1, D1, er, h1, x1, w1, d1⟩ :=
          dispatch_spec (op := op) hap hS h hys hxs hyv hxv hyn hxn hyok hxok (fun e => c1 e.symm) c2' hpy hpx (by omega)
        have hmin' : ∀ S', Sub S' T → Sub sx S' → Sub sy S' → Sub L S' := fun S' g1 g2 g3 => hmin S' g1 g3 g2
        have hin := inS hL hmin' x1 w1
        refine ⟨n, { b1 with cache := ((y, x, op), n) :: b1.cache }, D1, ?_, ?_, ?_, ?_, ?_⟩
        · rw [Builder.apply, if_neg c1, if_neg c2, if_neg c3, if_neg c4, if_neg c5]
          simp only [if_false, hc, h.tree, hxv, hyv, hpx, hpy, hsw, if_true, e]
          cases kind <;> simp only at er <;> simp only [er]
        · refine h1.addCache (Nat.lt_of_lt_of_le hyl x1.length) (Nat.lt_of_lt_of_le hxl x1.length) (h1.within_lt w1) ?_ ?_
          · intro w; rw [d1 w, x1.den _ hxl, x1.den _ hyl]
          · intro S' g1 g2 g3; exact hin S' g1 g3 g2
        · exact ⟨x1.nodes, x1.den, x1.vmap, x1.neg, x1.posVars, x1.negVars⟩
        · exact hin S hS (hx.ext h x1) (hy.ext h x1)
        · intro w; rw [d1 w, Op.sem_comm]
      · obtain ⟨kind, lca, e, L, hL, hmin, n, b1, D1, er, h1, x1, w1, d1⟩ :=
          dispatch_spec (op := op) hap hS h hxs hys hxv hyv hxn hyn hxok hyok c1 (fun e => c2 e.symm) hpx hpy (by omega)
        have hin := inS hL hmin x1 w1
        refine ⟨n, { b1 with cache := ((x, y, op), n) :: b1.cache }, D1, ?_, ?_, ?_, ?_, ?_⟩
        · rw [Builder.apply, if_neg c1, if_neg c2, if_neg c3, if_neg c4, if_neg c5]
          simp only [if_false, hc, h.tree, hxv, hyv, hpx, hpy, hsw, e]
          cases kind <;> simp only at er <;> simp only [er]
        · refine h1.addCache (Nat.lt_of_lt_of_le hxl x1.length) (Nat.lt_of_lt_of_le hyl x1.length) (h1.within_lt w1) ?_ hin
          intro w; rw [d1 w, x1.den _ hxl, x1.den _ hyl]
        · exact ⟨x1.nodes, x1.den, x1.vmap, x1.neg, x1.posVars, x1.negVars⟩
        · exact hin S hS (hx.ext h x1) (hy.ext h x1)
        · exact d1

end Sdd

end Scallop
