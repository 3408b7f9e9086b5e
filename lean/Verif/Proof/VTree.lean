import Verif.Model.VTree
import Mathlib.Data.List.Nodup
import Mathlib.Order.Basic
import Mathlib.Tactic.Common
import Mathlib.Tactic.Cases

/-! # Lemmas on variable trees -/

namespace Scallop

namespace VTree

/-- Subtree. -/
inductive Sub : VTree → VTree → Prop
  | refl (t : VTree) : Sub t t
  | left {s l : VTree} (i : Nat) (r : VTree) : Sub s l → Sub s (branch i l r)
  | right {s r : VTree} (i : Nat) (l : VTree) : Sub s r → Sub s (branch i l r)

/-- The indices are unique. -/
def Uniq (t : VTree) : Prop := t.inOrder.Nodup

theorem Sub.trans {a b c : VTree} (h1 : Sub a b) (h2 : Sub b c) : Sub a c := by
  induction h2 with
  | refl => exact h1
  | left i r _ ih => exact .left i r ih
  | right i l _ ih => exact .right i l ih

theorem id_mem (t : VTree) : t.id ∈ t.inOrder := by
  cases t <;> simp [id, inOrder]

theorem Sub.range {s t : VTree} (h : Sub s t) : ∃ pre post, t.inOrder = pre ++ s.inOrder ++ post := by
  induction h with
  | refl => exact ⟨[], [], by simp⟩
  | left i r _ ih =>
    obtain ⟨pre, post, h⟩ := ih
    exact ⟨pre, post ++ i :: r.inOrder, by simp [inOrder, h]⟩
  | right i l _ ih =>
    obtain ⟨pre, post, h⟩ := ih
    exact ⟨l.inOrder ++ i :: pre, post, by simp [inOrder, h]⟩

theorem Sub.mem {s t : VTree} (h : Sub s t) {x : Nat} (hx : x ∈ s.inOrder) : x ∈ t.inOrder := by
  obtain ⟨pre, post, e⟩ := h.range
  rw [e]; simp [hx]

theorem Sub.id_mem {s t : VTree} (h : Sub s t) : s.id ∈ t.inOrder := h.mem s.id_mem

theorem Sub.uniq {s t : VTree} (h : Sub s t) (u : t.Uniq) : s.Uniq := by
  obtain ⟨pre, post, e⟩ := h.range
  unfold Uniq at *
  rw [e] at u
  exact (List.nodup_append.1 (List.nodup_append.1 u).1).2.1

theorem Sub.length_le {s t : VTree} (h : Sub s t) : s.inOrder.length ≤ t.inOrder.length := by
  obtain ⟨pre, post, e⟩ := h.range
  rw [e]; simp; omega

theorem Uniq.branch {i : Nat} {l r : VTree} (u : (branch i l r).Uniq) :
    l.Uniq ∧ r.Uniq ∧ i ∉ l.inOrder ∧ i ∉ r.inOrder ∧ (∀ x ∈ l.inOrder, x ∉ r.inOrder) := by
  unfold Uniq at *
  simp only [inOrder, List.nodup_append, List.nodup_cons, List.mem_cons] at u
  obtain ⟨h1, ⟨h2, h3⟩, h4⟩ := u
  exact ⟨h1, h3, fun h => h4 i h i (.inl rfl) rfl, h2, fun x hx hr => h4 x hx x (.inr hr) rfl⟩

theorem inOrder_pos (t : VTree) : 0 < t.inOrder.length := List.length_pos_of_mem t.id_mem

theorem Sub.eq_of_length {s t : VTree} (h : Sub s t) (e : t.inOrder.length ≤ s.inOrder.length) : s = t := by
  cases h with
  | refl => rfl
  | left i r h => have := h.length_le; simp [inOrder] at e; omega
  | right i l h => have := h.length_le; simp [inOrder] at e; omega

theorem Sub.antisymm {s t : VTree} (h : Sub s t) (h' : Sub t s) : s = t := h.eq_of_length h'.length_le

theorem find_none {t : VTree} {j : Nat} (h : j ∉ t.inOrder) : t.find j = none := by
  induction t with
  | leaf i v => simp [inOrder] at h; simp [find, Ne.symm h]
  | branch i l r ihl ihr =>
    simp [inOrder] at h
    obtain ⟨h1, h2, h3⟩ := h
    simp [find, Ne.symm h2, ihl h1, ihr h3]

theorem find_self (t : VTree) : t.find t.id = some t := by
  cases t <;> simp [find, id]

theorem Sub.find {s t : VTree} (h : Sub s t) (u : t.Uniq) : t.find s.id = some s := by
  induction h with
  | refl => exact find_self _
  | left i r h ih =>
    obtain ⟨ul, ur, h1, h2, h3⟩ := u.branch
    have : i ≠ _ := fun e => h1 (e ▸ h.id_mem)
    simp [VTree.find, this, ih ul]
  | right i l h ih =>
    obtain ⟨ul, ur, h1, h2, h3⟩ := u.branch
    have : i ≠ _ := fun e => h2 (e ▸ h.id_mem)
    have hl : _ ∉ l.inOrder := fun hx => h3 _ hx h.id_mem
    simp [VTree.find, this, find_none hl, ih ur]

theorem Sub.eq_of_id {s s' t : VTree} (h : Sub s t) (h' : Sub s' t) (u : t.Uniq) (e : s.id = s'.id) : s = s' := by
  have h1 := h.find u
  rw [e, h'.find u] at h1
  exact (Option.some.inj h1).symm

theorem parent_none {t : VTree} {j : Nat} (h : j ∉ t.inOrder) : t.parent j = none := by
  induction t with
  | leaf i v => rfl
  | branch i l r ihl ihr =>
    simp [inOrder] at h
    obtain ⟨h1, h2, h3⟩ := h
    have e1 : l.id ≠ j := fun e => h1 (e ▸ l.id_mem)
    have e2 : r.id ≠ j := fun e => h3 (e ▸ r.id_mem)
    simp [parent, e1, e2, ihl h1, ihr h3]

/-- The parent of a proper subtree. -/
theorem Sub.parent {c t : VTree} (h : Sub c t) (u : t.Uniq) (ne : c ≠ t) :
    ∃ p, t.parent c.id = some p.id ∧ Sub p t ∧ Sub c p ∧ c ≠ p := by
  induction t with
  | leaf i v => cases h; exact absurd rfl ne
  | branch i l r ihl ihr =>
    obtain ⟨ul, ur, h1, h2, h3⟩ := u.branch
    cases h with
    | refl => exact absurd rfl ne
    | left _ _ h =>
      by_cases e : c = l
      · subst e
        exact ⟨.branch i c r, by simp [VTree.parent, id], .refl _, .left _ _ (.refl _), ne⟩
      · obtain ⟨p, hp, h5, h6, h7⟩ := ihl h ul e
        refine ⟨p, ?_, .left _ _ h5, h6, h7⟩
        have e1 : l.id ≠ c.id := fun e' => e (h.eq_of_id (.refl l) ul e'.symm)
        have e2 : r.id ≠ c.id := fun e' => h3 _ h.id_mem (e' ▸ r.id_mem)
        simp [VTree.parent, e1, e2, hp]
    | right _ _ h =>
      by_cases e : c = r
      · subst e
        exact ⟨.branch i l c, by simp [VTree.parent, id], .refl _, .right _ _ (.refl _), ne⟩
      · obtain ⟨p, hp, h5, h6, h7⟩ := ihr h ur e
        refine ⟨p, ?_, .right _ _ h5, h6, h7⟩
        have e1 : r.id ≠ c.id := fun e' => e (h.eq_of_id (.refl r) ur e'.symm)
        have e2 : l.id ≠ c.id := fun e' => h3 _ (e' ▸ l.id_mem) h.id_mem
        have e3 : l.parent c.id = none := parent_none (fun hx => h3 _ hx h.id_mem)
        simp [VTree.parent, e1, e2, e3, hp]

theorem Sub.parent_eq {c m t : VTree} (hm : Sub m t) (h : Sub c m) (u : t.Uniq) (ne : c ≠ m) : t.parent c.id = m.parent c.id := by
  induction hm with
  | refl => rfl
  | @left l i r hl ih =>
    obtain ⟨ul, ur, h1, h2, h3⟩ := u.branch
    obtain ⟨p, hp, -, -, -⟩ := h.parent (hl.uniq ul) ne
    have e1 : l.id ≠ c.id := fun e' => by
      have hc := (h.trans hl)
      rw [hc.eq_of_id (.refl _) ul e'.symm] at h ne
      exact ne (h.antisymm hl)
    have e2 : r.id ≠ c.id := fun e' => h3 _ (h.trans hl).id_mem (e' ▸ r.id_mem)
    simp [VTree.parent, e1, e2, ih ul, hp]
  | @right r i l hr ih =>
    obtain ⟨ul, ur, h1, h2, h3⟩ := u.branch
    obtain ⟨p, hp, -, -, -⟩ := h.parent (hr.uniq ur) ne
    have e1 : r.id ≠ c.id := fun e' => by
      have hc := (h.trans hr)
      rw [hc.eq_of_id (.refl _) ur e'.symm] at h ne
      exact ne (h.antisymm hr)
    have e2 : l.id ≠ c.id := fun e' => h3 _ (e' ▸ l.id_mem) (h.trans hr).id_mem
    have e3 : l.parent c.id = none := parent_none (fun hx => h3 _ hx (h.trans hr).id_mem)
    simp [VTree.parent, e1, e2, e3, ih ur]

/-- Two subtrees are nested or on different sides of a branch. -/
theorem Sub.compare {a b t : VTree} (ha : Sub a t) (hb : Sub b t) :
    Sub a b ∨ Sub b a ∨ ∃ i l r, Sub (branch i l r) t ∧ ((Sub a l ∧ Sub b r) ∨ (Sub b l ∧ Sub a r)) := by
  induction t with
  | leaf i v => cases ha; cases hb; exact .inl (.refl _)
  | branch i l r ihl ihr =>
    cases ha with
    | refl => exact .inr (.inl hb)
    | left _ _ ha =>
      cases hb with
      | refl => exact .inl (.left _ _ ha)
      | left _ _ hb =>
        rcases ihl ha hb with h | h | ⟨i', l', r', h, h'⟩
        · exact .inl h
        · exact .inr (.inl h)
        · exact .inr (.inr ⟨i', l', r', .left _ _ h, h'⟩)
      | right _ _ hb => exact .inr (.inr ⟨i, l, r, .refl _, .inl ⟨ha, hb⟩⟩)
    | right _ _ ha =>
      cases hb with
      | refl => exact .inl (.right _ _ ha)
      | right _ _ hb =>
        rcases ihr ha hb with h | h | ⟨i', l', r', h, h'⟩
        · exact .inl h
        · exact .inr (.inl h)
        · exact .inr (.inr ⟨i', l', r', .right _ _ h, h'⟩)
      | left _ _ hb => exact .inr (.inr ⟨i, l, r, .refl _, .inr ⟨hb, ha⟩⟩)

/-! ### Positions -/

/-- The position of an index in the in-order list. -/
def At (t : VTree) (x p : Nat) : Prop := ∃ pre post, t.inOrder = pre ++ x :: post ∧ pre.length = p

theorem idxOf?_split {x : Nat} (post : List Nat) : ∀ {pre : List Nat}, x ∉ pre → (pre ++ x :: post).idxOf? x = some pre.length
  | [], _ => by simp [List.idxOf?_cons]
  | a :: pre, h => by
    have h' : a ≠ x ∧ x ∉ pre := by simpa [eq_comm] using h
    simp [List.idxOf?_cons, h'.1, idxOf?_split post h'.2]

theorem At.position {t : VTree} {x p : Nat} (h : t.At x p) (u : t.Uniq) : t.position x = some p := by
  obtain ⟨pre, post, e, rfl⟩ := h
  have hx : x ∉ pre := by
    unfold Uniq at u
    rw [e] at u
    intro hx
    exact (List.nodup_append.1 u).2.2 x hx x (by simp) rfl
  unfold VTree.position
  rw [e, idxOf?_split post hx]

theorem At.of_mem {t : VTree} {x : Nat} (h : x ∈ t.inOrder) : ∃ p, t.At x p := by
  obtain ⟨pre, post, e⟩ := List.append_of_mem h
  exact ⟨pre.length, pre, post, e, rfl⟩

theorem first_split (t : VTree) : ∃ post, t.inOrder = t.firstId :: post := by
  induction t with
  | leaf i v => exact ⟨[], rfl⟩
  | branch i l r ihl ihr =>
    obtain ⟨post, h⟩ := ihl
    exact ⟨post ++ i :: r.inOrder, by simp [inOrder, firstId, h]⟩

theorem last_split (t : VTree) : ∃ pre, t.inOrder = pre ++ [t.lastId] := by
  induction t with
  | leaf i v => exact ⟨[], rfl⟩
  | branch i l r ihl ihr =>
    obtain ⟨pre, h⟩ := ihr
    exact ⟨l.inOrder ++ i :: pre, by simp [inOrder, lastId, h]⟩

/-- The positions in `t` of a subtree `s` are `[lo, lo + size)`. -/
def Off (s t : VTree) (lo : Nat) : Prop := ∃ pre post, t.inOrder = pre ++ s.inOrder ++ post ∧ pre.length = lo

theorem Off.at {s t : VTree} {lo x p : Nat} (h : Off s t lo) (hp : s.At x p) : t.At x (lo + p) := by
  obtain ⟨pre, post, e, rfl⟩ := h
  obtain ⟨pre', post', e', rfl⟩ := hp
  exact ⟨pre ++ pre', post' ++ post, by simp [e, e'], by simp⟩

theorem Off.first {s t : VTree} {lo : Nat} (h : Off s t lo) : t.At s.firstId lo := by
  obtain ⟨post, e⟩ := s.first_split
  simpa using h.at ⟨[], post, e, rfl⟩

theorem Off.last {s t : VTree} {lo : Nat} (h : Off s t lo) : t.At s.lastId (lo + (s.inOrder.length - 1)) := by
  obtain ⟨pre, e⟩ := s.last_split
  exact h.at ⟨pre, [], e, by simp [e]⟩

theorem Off.left {i : Nat} {l r t : VTree} {lo : Nat} (h : Off (branch i l r) t lo) : Off l t lo := by
  obtain ⟨pre, post, e, rfl⟩ := h
  exact ⟨pre, i :: r.inOrder ++ post, by simp [e, inOrder], rfl⟩

theorem Off.right {i : Nat} {l r t : VTree} {lo : Nat} (h : Off (branch i l r) t lo) : Off r t (lo + l.inOrder.length + 1) := by
  obtain ⟨pre, post, e, rfl⟩ := h
  exact ⟨pre ++ l.inOrder ++ [i], post, by simp [e, inOrder], by simp; omega⟩

theorem Off.root {i : Nat} {l r t : VTree} {lo : Nat} (h : Off (branch i l r) t lo) : t.At i (lo + l.inOrder.length) := by
  obtain ⟨pre, post, e, rfl⟩ := h
  exact ⟨pre ++ l.inOrder, r.inOrder ++ post, by simp [e, inOrder], by simp⟩

/-- The range of a subtree lies within that of the tree. -/
theorem Sub.off {s m t : VTree} {lo : Nat} (h : Sub s m) (hm : Off m t lo) :
    ∃ lo', Off s t lo' ∧ lo ≤ lo' ∧ lo' + s.inOrder.length ≤ lo + m.inOrder.length := by
  obtain ⟨pre, post, e, rfl⟩ := hm
  obtain ⟨pre', post', e'⟩ := h.range
  exact ⟨(pre ++ pre').length, ⟨pre ++ pre', post' ++ post, by simp [e, e'], rfl⟩, by simp, by simp [e']; omega⟩

theorem Off.refl (t : VTree) : Off t t 0 := ⟨[], [], by simp, rfl⟩

theorem Off.idpos {s t : VTree} {lo : Nat} (h : Off s t lo) : ∃ p, t.At s.id p ∧ lo ≤ p ∧ p < lo + s.inOrder.length := by
  cases s with
  | leaf i v => exact ⟨lo, by simpa [firstId, id] using h.first, (Nat.le_refl _), by simp [inOrder]⟩
  | branch i l r => exact ⟨_, h.root, by omega, by simp [inOrder]⟩

/-! ### Lowest common ancestor -/

theorem lcaLoop_spec {t : VTree} (u : t.Uniq) {i : Nat} {l r s1 s2 : VTree} (hL : Sub (branch i l r) t) (h1 : Sub s1 l) (h2 : Sub s2 r)
    {p2 : Nat} (hp2 : t.At s2.id p2) (fuel : Nat) :
    ∀ c, Sub s1 c → Sub c (branch i l r) → (branch i l r).inOrder.length + 1 ≤ fuel + c.inOrder.length →
      t.lcaLoop p2 fuel c.id = some i := by
  induction fuel with
  | zero => intro c h h' hf; have := h'.length_le; omega
  | succ fuel ih =>
    intro c hs hc hf
    obtain ⟨lo, hoL, -, -⟩ := hL.off (Off.refl t)
    obtain ⟨ul, ur, -, -, hd⟩ := (hL.uniq u).branch
    have hct := hc.trans hL
    have hp2' : t.position s2.id = some p2 := hp2.position u
    have hrange2 : lo + l.inOrder.length + 1 ≤ p2 ∧ p2 < lo + (branch i l r).inOrder.length := by
      obtain ⟨lo2, ho2, ha, hb⟩ := h2.off hoL.right
      obtain ⟨q, hq, hq1, hq2⟩ := ho2.idpos
      have : q = p2 := Option.some.inj ((hq.position u).symm.trans hp2')
      subst this
      simp [inOrder]; omega
    by_cases e : c = branch i l r
    · subst e
      have hlast := hoL.last.position u
      have hnl : ¬ (lo + ((branch i l r).inOrder.length - 1) < p2) := by omega
      simp only [lcaLoop, lastInSubtree, hct.find u, Option.map_some, Option.bind_some, hlast, hnl, if_false]
      rfl
    · have hcl : Sub c l := by
        cases hc with
        | refl => exact absurd rfl e
        | left _ _ h => exact h
        | right _ _ h => exact absurd (hs.trans h).id_mem (hd _ h1.id_mem)
      obtain ⟨lo', ho, ha, hb⟩ := hcl.off hoL.left
      have hlast := ho.last.position u
      have hpos := c.inOrder_pos
      have hlt : lo' + (c.inOrder.length - 1) < p2 := by omega
      obtain ⟨p, hp, hpL, hcp, hne⟩ := hc.parent (hL.uniq u) e
      rw [← hL.parent_eq hc u e] at hp
      simp only [lcaLoop, lastInSubtree, hct.find u, Option.map_some, Option.bind_some, hlast, hlt, if_true, hp]
      refine ih p (hs.trans hcp) hpL ?_
      have := hcp.length_le
      have : c.inOrder.length ≠ p.inOrder.length := fun e' => hne (hcp.eq_of_length (by omega))
      omega

/-- What `lowest_common_ancestor` computes, for two nodes in the order of their positions. -/
theorem lca_spec {t : VTree} (u : t.Uniq) {s1 s2 : VTree} (h1 : Sub s1 t) (h2 : Sub s2 t) {p1 p2 : Nat}
    (hp1 : t.position s1.id = some p1) (hp2 : t.position s2.id = some p2) (hle : p1 ≤ p2) :
    (s1 = s2 ∧ t.lowestCommonAncestor s1.id s2.id = some (.equal, s1.id)) ∨
    (∃ i l r, s2 = branch i l r ∧ Sub s1 l ∧ t.lowestCommonAncestor s1.id s2.id = some (.left, i)) ∨
    (∃ i l r, s1 = branch i l r ∧ Sub s2 r ∧ t.lowestCommonAncestor s1.id s2.id = some (.right, i)) ∨
    (∃ i l r, Sub (branch i l r) t ∧ Sub s1 l ∧ Sub s2 r ∧ t.lowestCommonAncestor s1.id s2.id = some (.disjoint, i)) := by
  by_cases e : s1 = s2
  · subst e; exact .inl ⟨rfl, by simp [lowestCommonAncestor]⟩
  have ne : s1.id ≠ s2.id := fun h => e (h1.eq_of_id h2 u h)
  obtain ⟨q1, hq1⟩ := At.of_mem h1.id_mem
  obtain ⟨q2, hq2⟩ := At.of_mem h2.id_mem
  obtain rfl : q1 = p1 := Option.some.inj ((hq1.position u).symm.trans hp1)
  obtain rfl : q2 = p2 := Option.some.inj ((hq2.position u).symm.trans hp2)
  have hne : q1 ≠ q2 := by
    rintro rfl
    obtain ⟨a, b, e1, e2⟩ := hq1
    obtain ⟨a', b', e1', e2'⟩ := hq2
    rw [e1] at e1'
    obtain ⟨rfl, h⟩ := List.append_inj e1' (by omega)
    injection h with h _
    exact ne h
  have hlt : q1 < q2 := by omega
  obtain ⟨lo1, ho1, -, -⟩ := h1.off (Off.refl t)
  obtain ⟨lo2, ho2, -, -⟩ := h2.off (Off.refl t)
  have hf := ho2.first.position u
  have hl := ho1.last.position u
  have uq : ∀ {x a b : Nat}, t.At x a → t.At x b → a = b :=
    fun ha hb => Option.some.inj ((ha.position u).symm.trans (hb.position u))
  have hlca : t.lowestCommonAncestor s1.id s2.id =
      if lo2 ≤ q1 then some (.left, s2.id) else if q2 ≤ lo1 + (s1.inOrder.length - 1) then some (.right, s1.id) else
        match t.parent s1.id with
        | none => none
        | some p => (lcaLoop t q2 t.inOrder.length p).map (fun i => (.disjoint, i)) := by
    simp only [lowestCommonAncestor, ne, if_false, hp1, hp2, firstInSubtree, lastInSubtree, h1.find u, h2.find u, Option.map_some,
      Option.bind_some, hf, hl, hlt, if_true]
    rfl
  have hoff : ∀ {s : VTree} {a b : Nat}, Off s t a → Off s t b → a = b := by
    intro s a b ha hb; exact uq ha.first hb.first
  rcases h1.compare h2 with h | h | ⟨i, l, r, hL, h⟩
  · -- s1 below s2
    cases s2 with
    | leaf j v => cases h; exact absurd rfl e
    | branch j l r =>
      have hj := uq ho2.root hq2
      cases h with
      | refl => exact absurd rfl e
      | left _ _ h =>
        obtain ⟨lo', ho', ha, hb⟩ := h.off ho2.left
        obtain ⟨q, hq, hqa, hqb⟩ := ho'.idpos
        have := uq hq hq1
        refine .inr (.inl ⟨j, l, r, rfl, h, ?_⟩)
        rw [hlca, if_pos (by omega)]; rfl
      | right _ _ h =>
        obtain ⟨lo', ho', ha, hb⟩ := h.off ho2.right
        obtain ⟨q, hq, hqa, hqb⟩ := ho'.idpos
        have := uq hq hq1
        omega
  · cases s1 with
    | leaf j v => cases h; exact absurd rfl e
    | branch j l r =>
      have hj := uq ho1.root hq1
      cases h with
      | refl => exact absurd rfl e
      | right _ _ h =>
        obtain ⟨lo', ho', ha, hb⟩ := h.off ho1.right
        obtain ⟨q, hq, hqa, hqb⟩ := ho'.idpos
        have := uq hq hq2
        have := hoff ho' ho2
        refine .inr (.inr (.inl ⟨j, l, r, rfl, h, ?_⟩))
        rw [hlca, if_neg (by omega), if_pos (by simp [inOrder]; omega)]; rfl
      | left _ _ h =>
        obtain ⟨lo', ho', ha, hb⟩ := h.off ho1.left
        obtain ⟨q, hq, hqa, hqb⟩ := ho'.idpos
        have := uq hq hq2
        omega
  · obtain ⟨lo, hoL, -, -⟩ := hL.off (Off.refl t)
    rcases h with ⟨ha, hb⟩ | ⟨ha, hb⟩
    · obtain ⟨lo', ho', h3, h4⟩ := ha.off hoL.left
      obtain ⟨lo'', ho'', h5, h6⟩ := hb.off hoL.right
      obtain ⟨q, hq, hqa, hqb⟩ := ho'.idpos
      obtain ⟨q', hq', hqa', hqb'⟩ := ho''.idpos
      have := uq hq hq1
      have := uq hq' hq2
      have := hoff ho' ho1
      have := hoff ho'' ho2
      have hpos := s1.inOrder_pos
      refine .inr (.inr (.inr ⟨i, l, r, hL, ha, hb, ?_⟩))
      have hs : Sub s1 (branch i l r) := .left _ _ ha
      have hn : s1 ≠ branch i l r := by
        rintro rfl
        have := ha.length_le
        simp [inOrder] at this; omega
      obtain ⟨p, hp, hpL, hcp, hne'⟩ := hs.parent (hL.uniq u) hn
      rw [← hL.parent_eq hs u hn] at hp
      rw [hlca, if_neg (by omega), if_neg (by omega), hp]
      simp only
      rw [lcaLoop_spec u hL ha hb hq2 _ p hcp hpL]
      · rfl
      · have := hL.length_le
        have := p.inOrder_pos
        omega
    · obtain ⟨lo', ho', h3, h4⟩ := ha.off hoL.left
      obtain ⟨lo'', ho'', h5, h6⟩ := hb.off hoL.right
      obtain ⟨q, hq, hqa, hqb⟩ := ho'.idpos
      obtain ⟨q', hq', hqa', hqb'⟩ := ho''.idpos
      have := uq hq hq2
      have := uq hq' hq1
      omega

/-- A tree that contains subtrees of both sides of a branch contains the branch. -/
theorem Sub.contains {t : VTree} (u : t.Uniq) {i : Nat} {l r s1 s2 S : VTree} (hL : Sub (branch i l r) t) (h1 : Sub s1 l) (h2 : Sub s2 r)
    (hS : Sub S t) (g1 : Sub s1 S) (g2 : Sub s2 S) : Sub (branch i l r) S := by
  obtain ⟨-, -, -, -, hd⟩ := (hL.uniq u).branch
  rcases hL.compare hS with h | h | ⟨j, l', r', hB, h⟩
  · exact h
  · cases h with
    | refl => exact .refl _
    | left _ _ h => exact absurd h2.id_mem (hd _ (g2.trans h).id_mem)
    | right _ _ h => exact absurd (g1.trans h).id_mem (hd _ h1.id_mem)
  · obtain ⟨-, -, -, -, hd'⟩ := (hB.uniq u).branch
    have h1' : Sub s1 (branch i l r) := .left _ _ h1
    rcases h with ⟨ha, hb⟩ | ⟨ha, hb⟩
    · exact absurd (g1.trans hb).id_mem (hd' _ (h1'.trans ha).id_mem)
    · exact absurd (h1'.trans hb).id_mem (hd' _ (g1.trans ha).id_mem)

theorem Sub.position {s t : VTree} (h : Sub s t) (u : t.Uniq) : ∃ p, t.position s.id = some p := by
  obtain ⟨p, hp⟩ := At.of_mem h.id_mem
  exact ⟨p, hp.position u⟩

/-! ### Construction -/

theorem leftLoop_spec (vs : List Nat) : ∀ (acc : VTree) (next : Nat), acc.Uniq → (∀ x ∈ acc.inOrder, x < next) →
    (leftLoop acc next vs).leaves.map Prod.snd = acc.leaves.map Prod.snd ++ vs ∧ (leftLoop acc next vs).Uniq := by
  induction vs with
  | nil => intro acc next h _; simp [leftLoop, h]
  | cons v vs ih =>
    intro acc next h hlt
    obtain ⟨h1, h2⟩ := ih (branch (next + 1) acc (leaf next v)) (next + 2) (by
        unfold Uniq at *
        simp only [inOrder, List.nodup_append, h, true_and]
        refine ⟨by simp, ?_⟩
        intro a ha b hb
        have := hlt a ha
        simp at hb; omega) (by
        intro x hx
        simp [inOrder] at hx
        rcases hx with hx | hx | hx
        · have := hlt x hx; omega
        all_goals omega)
    exact ⟨by simp [leftLoop, h1, leaves], h2⟩

theorem rightLoop_spec (vs : List Nat) : ∀ (acc : VTree) (next : Nat), acc.Uniq → (∀ x ∈ acc.inOrder, x < next) →
    (rightLoop acc next vs).leaves.map Prod.snd = vs.reverse ++ acc.leaves.map Prod.snd ∧ (rightLoop acc next vs).Uniq := by
  induction vs with
  | nil => intro acc next h _; simp [rightLoop, h]
  | cons v vs ih =>
    intro acc next h hlt
    obtain ⟨h1, h2⟩ := ih (branch (next + 1) (leaf next v) acc) (next + 2) (by
        unfold Uniq at *
        simp only [inOrder, List.cons_append, List.nil_append, List.nodup_cons, h, and_true, List.mem_cons]
        refine ⟨?_, fun hx => ?_⟩
        · rintro (hx | hx)
          · omega
          · have := hlt _ hx; omega
        · have := hlt _ hx; omega) (by
        intro x hx
        simp [inOrder] at hx
        rcases hx with hx | hx | hx
        · omega
        · omega
        · have := hlt x hx; omega)
    exact ⟨by simp [rightLoop, h1, leaves], h2⟩

theorem recurse_spec (vars : List Nat) : ∀ (fuel low high next : Nat), low < high → high ≤ vars.length → high - low ≤ fuel →
    ∃ t n', recurse vars fuel low high next = some (t, n') ∧ t.leaves.map Prod.snd = (vars.drop low).take (high - low) ∧ t.Uniq ∧
      (∀ x ∈ t.inOrder, next ≤ x ∧ x < n') := by
  intro fuel
  induction fuel with
  | zero => intro low high next h1 h2 h3; omega
  | succ fuel ih =>
    intro low high next h1 h2 h3
    by_cases e : low = high - 1
    · have hv : low < vars.length := by omega
      refine ⟨leaf next vars[low], next + 1, ?_, ?_, by simp [Uniq, inOrder], by simp [inOrder]⟩
      · rw [recurse, if_pos e, List.getElem?_eq_getElem hv]; rfl
      · have : high - low = 1 := by omega
        rw [this, List.drop_eq_getElem_cons hv, List.take_succ_cons, List.take_zero]
        rfl
    · obtain ⟨l, n1, hl, hl2, hl3, hl4⟩ := ih low ((high + low) / 2) next (by omega) (by omega) (by omega)
      obtain ⟨r, n2, hr, hr2, hr3, hr4⟩ := ih ((high + low) / 2) high n1 (by omega) (by omega) (by omega)
      refine ⟨branch n2 l r, n2 + 1, ?_, ?_, ?_, ?_⟩
      · rw [recurse, if_neg e]; simp only [hl, hr]
      · simp only [leaves, List.map_append, hl2, hr2]
        have e1 : high - low = ((high + low) / 2 - low) + (high - (high + low) / 2) := by omega
        rw [e1, List.take_add, List.drop_drop]
        congr 3
        omega
      · unfold Uniq at *
        simp only [inOrder, List.nodup_append, hl3, List.nodup_cons, hr3, and_true, true_and, List.mem_cons]
        refine ⟨fun h => ?_, ?_⟩
        · have := hr4 _ h; omega
        · rintro a ha b (rfl | hb) rfl
          · have := hl4 _ ha
            have := hr4 _ r.id_mem
            omega
          · have := hl4 _ ha
            have := hr4 _ hb
            omega
      · intro x hx
        simp only [inOrder, List.mem_append, List.mem_cons] at hx
        have a := hl4 _ l.id_mem
        have b := hr4 _ r.id_mem
        rcases hx with h | h | h
        · have := hl4 _ h; omega
        · omega
        · have := hr4 _ h; omega

theorem newWithType_spec {vars : List Nat} (h : vars ≠ []) (k : Kind) :
    ∃ t, newWithType vars k = some t ∧ t.leaves.map Prod.snd = vars ∧ t.Uniq := by
  cases k with
  | left =>
    cases vars with
    | nil => exact absurd rfl h
    | cons v vs =>
      obtain ⟨h1, h2⟩ := leftLoop_spec vs (leaf 0 v) 1 (by simp [Uniq, inOrder]) (by simp [inOrder])
      exact ⟨_, rfl, by simpa [leaves] using h1, h2⟩
  | right =>
    simp only [newWithType, createRightLinear]
    cases hr : vars.reverse with
    | nil => simp at hr; exact absurd hr h
    | cons v vs =>
      obtain ⟨h1, h2⟩ := rightLoop_spec vs (leaf 0 v) 1 (by simp [Uniq, inOrder]) (by simp [inOrder])
      refine ⟨_, rfl, ?_, h2⟩
      rw [h1, ← List.reverse_reverse vars, hr]
      simp [leaves]
  | balanced =>
    have hp : 0 < vars.length := List.length_pos_iff.2 h
    obtain ⟨t, n', h1, h2, h3, -⟩ := recurse_spec vars vars.length 0 vars.length 0 hp (Nat.le_refl _) (by omega)
    have he : vars.isEmpty = false := by simpa using h
    exact ⟨t, by simp [newWithType, createBalanced, he, h1], by simpa using h2, h3⟩

end VTree

end Scallop
