import Verif.Proof.Constants

/-!
# C93: a constant stands for its value wherever it is used
-/

namespace Scallop.Consts

open Ty Ent

variable {F : Type} {h : Hash F}

/-- The program is accepted, and this is the state that the replacement of constants uses. -/
def Accepted (h : Hash F) (items : List (Item F)) (s : St F) : Prop := analyse h St.init items = .ok s ∧ s.errors = []

/-- Every variable has a node of its own. -/
def OwnNodes (items : List (Item F)) : Prop := ((items.flatMap Item.vars).map Occ.id).Nodup

private def exProg : List (Item Int) :=
  [.const "A" (some (.int .u8)) (.const (.int 7) ⟨0, 10, 11⟩), .const "L" none (.obj "Cons" [.var "A", .obj "Nil" [] ⟨0, 30, 35⟩] ⟨0, 20, 36⟩),
   .enum [("RED", none), ("GREEN", some (.int 5)), ("BLUE", none)], .set [⟨0, "A"⟩, ⟨1, "BLUE"⟩], .fact [⟨2, "L"⟩] false,
   .other [⟨3, "A"⟩, ⟨4, "x"⟩, ⟨5, "L"⟩] ["n"]]

private theorem ex_range : ∀ i ∈ exProg, i.InRange := by
  intro i hi
  simp only [exProg, List.mem_cons, List.not_mem_nil, or_false] at hi
  rcases hi with rfl | rfl | rfl | rfl | rfl | rfl <;> try exact trivial
  refine ⟨by decide, fun x i hx => ?_⟩
  simp only [List.mem_cons, Prod.mk.injEq, List.not_mem_nil, or_false] at hx
  rcases hx with ⟨-, h⟩ | ⟨-, h⟩ | ⟨-, h⟩
  · simp at h
  · simp only [Option.some.injEq, Const.int.injEq] at h; omega
  · simp at h

/-- The analysis never panics. -/
theorem c93_no_panic (h : Hash F) (items : List (Item F)) : ∃ s, analyse h St.init items = .ok s := analyse_ok items _

/-- A program is accepted exactly if it is correct: a name is declared once, from constants and names declared before it; the numbers given
to members of an enumeration increase; sets and facts use only names declared before them; and no such name is bound by a variable. -/
theorem c93_accepts (h : Hash F) (items : List (Item F)) (hr : ∀ i ∈ items, i.InRange) : (∃ s, Accepted h items s) ↔ ProgramOk items := by
  obtain ⟨s, h1, h2⟩ := analyse_inv (inv_init (h := h)) hr
  constructor
  · rintro ⟨s', g1, g2⟩
    rw [h1] at g1
    cases g1
    rcases h2 with ⟨-, h3, -⟩ | ⟨h3, -⟩
    · intro p i q he
      simpa using h3 p i q he
    · exact absurd g2 h3
  · intro hok
    rcases h2 with ⟨h3, -, -⟩ | ⟨-, h3⟩
    · exact ⟨s, h1, h3⟩
    · exact absurd (fun p i q he => by simpa using hok p i q he) h3

theorem accepted_inv {items : List (Item F)} {s : St F} (hr : ∀ i ∈ items, i.InRange) (ha : Accepted h items s) :
    Inv h items s ∧ (items.flatMap Item.names).Nodup := by
  obtain ⟨s', h1, h2⟩ := analyse_inv (inv_init (h := h)) hr
  rw [ha.1] at h1
  cases h1
  rcases h2 with ⟨-, h3, h4⟩ | ⟨h3, -⟩
  · exact ⟨by simpa using h4, by simpa using names_nodup (pre := []) (by simp) h3⟩
  · exact absurd ha.2 h3

/-- In an accepted program no name is declared twice. -/
theorem c93_distinct {items : List (Item F)} {s : St F} (hr : ∀ i ∈ items, i.InRange) (ha : Accepted h items s) :
    (items.flatMap Item.names).Nodup := (accepted_inv hr ha).2

/-- A variable with the name of a constant declared before it is replaced by the value of the constant: that of its term with all
declarations put in; and the facts of the entities in it are there. There is only one such value. -/
theorem c93_replaced {items pre post : List (Item F)} {s : St F} {i : Item F} {o : Occ} (hr : ∀ i ∈ items, i.InRange)
    (ha : Accepted h items s) (he : items = pre ++ i :: post) (ho : o ∈ i.vars) (hb : o.name ∈ pre.flatMap Item.names) :
    ∃ c l facts, replace s o = .ok (some c) ∧ ValueOf h items (.var o.name) (c, l) facts ∧ (∀ f ∈ facts, f ∈ s.facts) ∧
      ∀ c' l' facts', ValueOf h items (.var o.name) (c', l') facts' → c' = c ∧ facts' = facts := by
  obtain ⟨inv, hn⟩ := accepted_inv hr ha
  have hu : (o.id, o.name) ∈ s.uses := (inv.uses o.id o.name).2 ⟨pre, i, post, he, o, ho, rfl, rfl, hb⟩
  have hh : s.has o.name = true := (inv.has o.name).2 (by rw [he, List.flatMap_append]; exact List.mem_append_left _ hb)
  rw [← get_isSome, Option.isSome_iff_exists] at hh
  obtain ⟨d, hd⟩ := hh
  obtain ⟨fs, h1, h2⟩ := inv.value _ _ hd
  refine ⟨d.2.1, d.2.2, fs, ?_, h1, h2, fun c' l' fs' hv => ?_⟩
  · unfold replace
    rw [if_pos (List.any_eq_true.2 ⟨_, hu, by simp⟩), hd]
  · obtain ⟨e1, e2⟩ := value_unique hn hv h1
    exact ⟨by rw [← e1], e2⟩

/-- Every other variable stays a variable. -/
theorem c93_left {items pre post : List (Item F)} {s : St F} {i : Item F} {o : Occ} (hr : ∀ i ∈ items, i.InRange) (hown : OwnNodes items)
    (ha : Accepted h items s) (he : items = pre ++ i :: post) (ho : o ∈ i.vars) (hb : o.name ∉ pre.flatMap Item.names) :
    replace s o = .ok none := by
  obtain ⟨inv, -⟩ := accepted_inv hr ha
  unfold replace
  rw [if_neg]
  rw [List.any_eq_true]
  rintro ⟨⟨k, n⟩, hu, hk⟩
  simp only [decide_eq_true_eq] at hk
  obtain ⟨p1, j, p2, e1, o', h1, h2, h3, h4⟩ := (inv.uses k n).1 hu
  obtain ⟨rfl, rfl⟩ := occ_place (he.symm.trans e1) (by rw [← he]; exact hown) ho h1 (by rw [h2, hk])
  rw [← h3] at h4
  exact hb h4

/-- Facts and sets of facts have no variables left, unless an argument of the fact takes an entity apart. -/
theorem c93_ground {items : List (Item F)} {s : St F} {i : Item F} {o : Occ} (hr : ∀ i ∈ items, i.InRange) (ha : Accepted h items s)
    (hi : i ∈ items) (hk : (∃ vs, i = .set vs) ∨ ∃ vs, i = .fact vs false) (ho : o ∈ i.vars) : ∃ c, replace s o = .ok (some c) := by
  obtain ⟨pre, post, he⟩ := List.append_of_mem hi
  have hok := (c93_accepts h items hr).1 ⟨s, ha⟩ pre i post he
  have hb : o.name ∈ pre.flatMap Item.names := by
    rcases hk with ⟨vs, rfl⟩ | ⟨vs, rfl⟩
    · exact hok o ho
    · rcases hok with h1 | h1
      · simp at h1
      · exact h1 o ho
  obtain ⟨c, l, fs, h1, -⟩ := c93_replaced hr ha he ho hb
  exact ⟨c, h1⟩

theorem numbered_props {prev : Option Int} {ms : List (String × Option (Const F))} {vs : List Int} (hn : Numbered prev ms vs) :
    (∀ v ∈ vs, ∀ p, prev = some p → p < v) ∧ (∀ v ∈ vs, prev = none → 0 ≤ v) ∧ vs.Pairwise (· < ·) ∧
    (∀ (k : Nat) x i, ms[k]? = some (x, some (.int i)) → 0 ≤ i → vs[k]? = some i) ∧
    (∀ (k : Nat) m, ms[k]? = some m → (∀ i, m.2 = some (.int i) → i < 0) → vs[k]? = some (after (if k = 0 then prev else vs[k - 1]?))) := by
  induction hn with
  | nil => exact ⟨by simp, by simp, by simp, by simp, by simp⟩
  | @given prev x i ms vs h0 hgt hn ih =>
    obtain ⟨a1, -, a3, a4, a5⟩ := ih
    refine ⟨fun v hv p hp => ?_, fun v hv _ => ?_, List.pairwise_cons.2 ⟨fun v hv => a1 v hv i rfl, a3⟩, fun k y j hk hj => ?_, fun k m hk hm => ?_⟩
    · rcases List.mem_cons.1 hv with rfl | hv
      · exact hgt p hp
      · exact Int.lt_trans (hgt p hp) (a1 v hv i rfl)
    · rcases List.mem_cons.1 hv with rfl | hv
      · exact h0
      · exact Int.le_of_lt (Int.lt_of_le_of_lt h0 (a1 v hv i rfl))
    · cases k with
      | zero => simp at hk; simp [hk.2]
      | succ k => exact a4 k y j hk hj
    · cases k with
      | zero => simp only [List.getElem?_cons_zero, Option.some.injEq] at hk; subst hk; exact absurd (hm i rfl) (by omega)
      | succ k =>
        have := a5 k m hk hm
        rw [List.getElem?_cons_succ, this]
        cases k <;> simp
  | @free prev m ms vs hm' hn ih =>
    obtain ⟨a1, -, a3, a4, a5⟩ := ih
    have h0 : ∀ p, prev = some p → p < after prev := fun p hp => by subst hp; simp only [after]; omega
    refine ⟨fun v hv p hp => ?_, fun v hv hp => ?_, List.pairwise_cons.2 ⟨fun v hv => a1 v hv _ rfl, a3⟩, fun k y j hk hj => ?_, fun k m' hk hm => ?_⟩
    · rcases List.mem_cons.1 hv with rfl | hv
      · exact h0 p hp
      · exact Int.lt_trans (h0 p hp) (a1 v hv _ rfl)
    · subst hp
      rcases List.mem_cons.1 hv with rfl | hv
      · exact Int.le_refl _
      · exact Int.le_of_lt (a1 v hv _ rfl)
    · cases k with
      | zero => simp only [List.getElem?_cons_zero, Option.some.injEq] at hk; subst hk; exact absurd (hm' j rfl) (by omega)
      | succ k => exact a4 k y j hk hj
    · cases k with
      | zero => simp
      | succ k =>
        have := a5 k m' hk hm
        rw [List.getElem?_cons_succ, this]
        cases k <;> simp

/-- The members of an enumeration have different numbers that increase: the number that is given, if it is one from 0 on; otherwise 0 for
the first member and one more than the member before for the others. Uses of the members are replaced by them. -/
theorem c93_enum {items : List (Item F)} {s : St F} (hr : ∀ i ∈ items, i.InRange) (ha : Accepted h items s)
    {ms : List (String × Option (Const F))} (hm : Item.enum ms ∈ items) :
    ∃ vs : List Int, vs.length = ms.length ∧ vs.Pairwise (· < ·) ∧
      (∀ (k : Nat) x i, ms[k]? = some (x, some (.int i)) → 0 ≤ i → vs[k]? = some i) ∧
      (∀ m, ms[0]? = some m → (∀ i, m.2 = some (.int i) → i < 0) → vs[0]? = some 0) ∧
      (∀ (k : Nat) m v, ms[k + 1]? = some m → (∀ i, m.2 = some (.int i) → i < 0) → vs[k]? = some v → vs[k + 1]? = some (v + 1)) ∧
      ∀ (k : Nat) x c v, ms[k]? = some (x, c) → vs[k]? = some v → (s.get x).map (fun d => (d.1, d.2.1)) = some (some (.int .usize), .int v) := by
  obtain ⟨inv, hn⟩ := accepted_inv hr ha
  obtain ⟨pre, post, he⟩ := List.append_of_mem hm
  obtain ⟨-, -, vs, hv⟩ := (c93_accepts h items hr).1 ⟨s, ha⟩ pre _ post he
  obtain ⟨-, -, a3, a4, a5⟩ := numbered_props hv
  refine ⟨vs, numbered_length hv, a3, a4, fun m h1 h2 => by simpa [after] using a5 0 m h1 h2, fun k m v h1 h2 h3 => ?_, fun k x c v h1 h2 => ?_⟩
  · have := a5 (k + 1) m h1 h2
    simpa [h3, after] using this
  · have hx : x ∈ ms.map Prod.fst := List.mem_map.2 ⟨_, List.mem_of_getElem? h1, rfl⟩
    have hh : s.has x = true := (inv.has x).2 (List.mem_flatMap.2 ⟨_, hm, hx⟩)
    rw [← get_isSome, Option.isSome_iff_exists] at hh
    obtain ⟨d, hd⟩ := hh
    obtain ⟨fs, g1, -⟩ := inv.value x d hd
    have g2 : ValueOf h items (.var x) (.int v, ⟨0, 0, 0⟩) [] := ⟨.const (.int v) ⟨0, 0, 0⟩, .var (.enum hm hv h1 h2) .const, rfl⟩
    obtain ⟨e1, -⟩ := value_unique hn g1 g2
    have ht := inv.type x d hd
    have e2 : d.1 = some (.int .usize) := by
      rcases ht with ⟨c, l, h3⟩ | ⟨ty', t, -, h3, -⟩ | ⟨ms', -, -, h3⟩
      · have := flatMap_inj hn hm h3 (x := x) hx (by simp [Item.names]); simp at this
      · have := flatMap_inj hn hm h3 (x := x) hx (by simp [Item.names]); simp at this
      · exact h3
    rw [hd, Option.map_some, e1, e2]

/-- A use of a constant that is declared as a literal has the type that is declared. Partial: not so for constants declared by other
constants (`c93_alias_false`). -/
theorem c93_type_partial {items pre post : List (Item F)} {s : St F} {i : Item F} {o : Occ} {ty : Option VTy} {c : Const F} {l : Ent.Loc}
    (hr : ∀ i ∈ items, i.InRange) (hown : OwnNodes items) (ha : Accepted h items s) (he : items = pre ++ i :: post) (ho : o ∈ i.vars)
    (hd : Item.const o.name ty (.const c l) ∈ pre) : typeOfUse s o = ty ∧ replace s o = .ok (some c) := by
  obtain ⟨inv, hn⟩ := accepted_inv hr ha
  have hd' : Item.const o.name ty (.const c l) ∈ items := by rw [he]; exact List.mem_append_left _ hd
  have hb : o.name ∈ pre.flatMap Item.names := List.mem_flatMap.2 ⟨_, hd, by simp [Item.names]⟩
  have hu : (o.id, o.name) ∈ s.uses := (inv.uses o.id o.name).2 ⟨pre, i, post, he, o, ho, rfl, rfl, hb⟩
  have hh : s.has o.name = true := (inv.has o.name).2 (List.mem_flatMap.2 ⟨_, hd', by simp [Item.names]⟩)
  rw [← get_isSome, Option.isSome_iff_exists] at hh
  obtain ⟨d, hd2⟩ := hh
  constructor
  · unfold typeOfUse
    cases hf : s.uses.find? fun u => u.1 = o.id with
    | none =>
      rw [List.find?_eq_none] at hf
      exact absurd (hf _ hu) (by simp)
    | some u =>
      have hk := List.find?_some hf
      have hu' := List.mem_of_find?_eq_some hf
      simp only [decide_eq_true_eq] at hk
      obtain ⟨k, n⟩ := u
      obtain ⟨p1, j, p2, e1, o', h1, h2, h3, -⟩ := (inv.uses k n).1 hu'
      obtain ⟨-, rfl⟩ := occ_place (he.symm.trans e1) (by rw [← he]; exact hown) ho h1 (by rw [h2]; exact hk.symm)
      simp only
      rw [← h3, hd2]
      rcases inv.type _ _ hd2 with ⟨c', l', h3⟩ | ⟨ty', t, ht, h3, -⟩ | ⟨ms', h3, h4, -⟩
      · have := flatMap_inj hn hd' h3 (x := o.name) (by simp [Item.names]) (by simp [Item.names])
        simp only [Item.const.injEq] at this
        exact this.2.1.symm
      · have := flatMap_inj hn hd' h3 (x := o.name) (by simp [Item.names]) (by simp [Item.names])
        simp only [Item.const.injEq] at this
        rw [← this.2.2] at ht
        simp [isConstant] at ht
      · have := flatMap_inj hn hd' h3 (x := o.name) (by simp [Item.names]) h4
        simp at this
  · obtain ⟨c', l', fs, h1, -, -, h3⟩ := c93_replaced hr ha he ho hb
    rw [h1]
    rw [(h3 c l [] ⟨.const c l, .var (.const hd') .const, rfl⟩).1]

/-! ## Examples and refutations -/

example : OwnNodes exProg ∧ (∃ s, Accepted (fun _ => 3) exProg s ∧ replace s ⟨0, "A"⟩ = .ok (some (.int 7)) ∧ replace s ⟨1, "BLUE"⟩ = .ok (some (.int 6)) ∧
    replace s ⟨4, "x"⟩ = .ok none ∧ typeOfUse s ⟨0, "A"⟩ = some (.int .u8) ∧ s.facts.length = 2) :=
  ⟨by unfold OwnNodes; decide, _, ⟨rfl, rfl⟩, rfl, rfl, rfl, rfl, rfl⟩

example : ∀ i ∈ exProg, i.InRange := ex_range

/-- Refuted: the order of items matters. The same two items, accepted in both orders; the variable is the constant in one order and a
variable in the other. -/
theorem c93_order_false : ∃ (h : Hash Int) (i j : Item Int) (o : Occ) (s s' : St Int) (c : Const Int), o ∈ j.vars ∧ Accepted h [i, j] s ∧ Accepted h [j, i] s' ∧
    replace s o = .ok (some c) ∧ replace s' o = .ok none :=
  ⟨fun _ => 0, .const "A" none (.const (.int 1) ⟨0, 0, 0⟩), .other [⟨0, "A"⟩] [], ⟨0, "A"⟩, _, _, .int 1, by simp [Item.vars], ⟨rfl, rfl⟩, ⟨rfl, rfl⟩, rfl, rfl⟩

/-- Refuted: a constant declared by another constant, with a type, has another type: `const A: u8 = 1`, `const B: u8 = A`; the uses of `B`
are of the type of entities, and their value is 1. -/
theorem c93_alias_false : ∃ (h : Hash Int) (s : St Int) (o : Occ),
    Accepted h [.const "A" (some (.int .u8)) (.const (.int 1) ⟨0, 16, 17⟩), .const "B" (some (.int .u8)) (.var "A"), .set [o]] s ∧ o.name = "B" ∧
    replace s o = .ok (some (.int 1)) ∧ typeOfUse s o = some .entity :=
  ⟨fun _ => 0, _, ⟨0, "B"⟩, ⟨rfl, rfl⟩, rfl, rfl, rfl⟩

/-- Refuted: a negative number, or a constant that is not a number, given to a member is ignored without an error: `A = -5 | B = "b"`. -/
theorem c93_given_false : ∃ (h : Hash Int) (s : St Int),
    Accepted h [.enum [("A", some (.int (-5))), ("B", some (.string "b"))], .set [⟨0, "A"⟩, ⟨1, "B"⟩]] s ∧
    replace s ⟨0, "A"⟩ = .ok (some (.int 0)) ∧ replace s ⟨1, "B"⟩ = .ok (some (.int 1)) :=
  ⟨fun _ => 0, _, ⟨rfl, rfl⟩, rfl, rfl⟩

/-- Refuted without the bound on the numbers: the member after the greatest number gets the least one. -/
theorem c93_overflow_false : ∃ (h : Hash Int) (s : St Int),
    Accepted h [.enum [("A", some (.int (2 ^ 63 - 1))), ("B", none)], .set [⟨0, "A"⟩, ⟨1, "B"⟩]] s ∧
    replace s ⟨0, "A"⟩ = .ok (some (.int (2 ^ 63 - 1))) ∧ replace s ⟨1, "B"⟩ = .ok (some (.int (-(2 ^ 63)))) :=
  ⟨fun _ => 0, _, ⟨rfl, rfl⟩, rfl, rfl⟩

end Scallop.Consts
