import Verif.Spec.Ram
import Verif.Proof.Expr
import Mathlib.Data.List.Perm.Basic
import Mathlib.Data.List.Nodup

namespace Scallop.Ram

variable {F S R : Type}

/-! ### Substitution -/

theorem out_subst (m : Sem F S R) (ρ : String → S) (s t : String) : ∀ d : Dataflow F,
    m.out ρ (subst s t d) = m.out (fun r => if r = s then ρ t else ρ r) d
  | .leaf l => by
    cases l with
    | rel r => simp only [subst, Leaf.subst, Sem.out, Sem.leaf]; split <;> simp_all
    | reduce a p g =>
      cases g with
      | none => simp only [subst, Leaf.subst, GroupBy.subst, Sem.out, Sem.leaf]; split <;> simp_all
      | implicit => simp only [subst, Leaf.subst, GroupBy.subst, Sem.out, Sem.leaf]; split <;> simp_all
      | join r => simp only [subst, Leaf.subst, GroupBy.subst, Sem.out, Sem.leaf]; split <;> split <;> simp_all
    | _ => rfl
  | .un o d => by
    cases o with
    | joinIndexedVec r =>
      simp only [subst, Un.subst, Sem.out, out_subst m ρ s t d]; split <;> simp_all
    | _ => simp only [subst, Un.subst, Sem.out, out_subst m ρ s t d]
  | .bin o d1 d2 => by simp only [subst, Sem.out, out_subst m ρ s t d1, out_subst m ρ s t d2]
  | .project d e => by simp only [subst, Sem.out, out_subst m ρ s t d]

/-! ### One merge -/

/-- The relation `a` is defined by the dataflow `d` alone. -/
def Def (us : List (Update F)) (a : String) (d : Dataflow F) : Prop := us.filter (·.target = a) = [⟨a, d⟩]

theorem merge_filter (pivot t r : String) (s : Stratum F) (hr : r ≠ t) :
    (merge pivot t s).updates.filter (·.target = r) = (s.updates.filter (·.target = r)).map (fun u => ⟨u.target, subst t pivot u.flow⟩) := by
  simp only [merge]
  induction s.updates with
  | nil => rfl
  | cons u us ih =>
    by_cases h : u.target = t
    · have : u.target ≠ r := fun e => hr (e ▸ h)
      simp only [List.filter_cons, h, ne_eq, not_true_eq_false, decide_false, Bool.false_eq_true, if_false]
      rw [if_neg (by simpa using fun e => hr e.symm)]
      exact ih
    · by_cases h2 : u.target = r
      · subst h2
        rw [List.filter_cons_of_pos (by simpa using h), List.map_cons, List.filter_cons_of_pos (by simp), ih,
          List.filter_cons_of_pos (by simp), List.map_cons]
      · simp only [List.filter_cons, ne_eq, h, not_false_eq_true, decide_true, if_true, List.map_cons, h2, decide_false,
          Bool.false_eq_true, if_false]
        exact ih

theorem Def.merge {s : Stratum F} {a : String} {d : Dataflow F} (h : Def s.updates a d) (pivot t : String) (hr : a ≠ t) :
    Def (merge pivot t s).updates a (subst t pivot d) := by
  unfold Def at *
  rw [merge_filter pivot t a s hr, h]; rfl

theorem run_same (m : Sem F S R) (us : List (Update F)) (init : String → S) {p t : String} {d : Dataflow F}
    (hp : Def us p d) (ht : Def us t d) (hi : init t = init p) : ∀ n, m.run us init n t = m.run us init n p
  | 0 => hi
  | n + 1 => by
    unfold Def at hp ht
    simp only [Sem.run, Sem.round, hp, ht, run_same m us init hp ht hi n, List.map_cons, List.map_nil]

theorem merge_run (m : Sem F S R) (s : Stratum F) (init : String → S) {p t : String} {d : Dataflow F} (hpt : p ≠ t)
    (hp : Def s.updates p d) (ht : Def s.updates t d) (hi : init t = init p) : ∀ n r, r ≠ t →
    m.run (merge p t s).updates init n r = m.run s.updates init n r
  | 0, _, _ => rfl
  | n + 1, r, hr => by
    have ih := merge_run m s init hpt hp ht hi n
    have hs := run_same m s.updates init hp ht hi n
    simp only [Sem.run, Sem.round]
    rw [merge_filter p t r s hr, ih r hr, List.map_map]
    congr 1
    apply List.map_congr_left
    intro u _
    simp only [Function.comp, out_subst]
    congr 1
    funext x
    split
    · rename_i hx; subst hx; rw [ih p hpt, hs]
    · rename_i hx; exact ih x hx

/-! ### Sequences of merges -/

/-- The stratum `s'` does the same as `s` on the relations it keeps; the relations it lacks are temporaries that always agreed with one
of those it keeps. -/
def Sim (m : Sem F S R) (init : String → S) (s s' : Stratum F) : Prop :=
  ∃ rem : List String, s'.relations = s.relations.filter (fun r => decide (r ∉ rem)) ∧ (∀ r ∈ rem, isTemp r = true) ∧
    (∀ n r, r ∉ rem → m.run s'.updates init n r = m.run s.updates init n r) ∧
    ∀ r ∈ rem, ∃ p ∈ s'.relations, ∀ n, m.run s.updates init n r = m.run s.updates init n p

theorem Sim.refl (m : Sem F S R) (init : String → S) (s : Stratum F) : Sim m init s s :=
  ⟨[], by simp, by simp, fun _ _ _ => rfl, by simp⟩

theorem Sim.trans {m : Sem F S R} {init : String → S} {s s' s'' : Stratum F} (h1 : Sim m init s s') (h2 : Sim m init s' s'') :
    Sim m init s s'' := by
  obtain ⟨r1, a1, b1, c1, d1⟩ := h1
  obtain ⟨r2, a2, b2, c2, d2⟩ := h2
  have notin : ∀ p ∈ s'.relations, p ∉ r1 := by
    intro p hp; rw [a1] at hp; simpa using (List.mem_filter.mp hp).2
  have sub : ∀ p ∈ s''.relations, p ∈ s'.relations := by
    intro p hp; rw [a2] at hp; exact (List.mem_filter.mp hp).1
  refine ⟨r1 ++ r2, ?_, ?_, ?_, ?_⟩
  · rw [a2, a1, List.filter_filter]
    apply List.filter_congr
    intro x _
    simp [Bool.and_comm]
  · intro r hr
    rcases List.mem_append.mp hr with h | h
    · exact b1 r h
    · exact b2 r h
  · intro n r hr
    rw [List.mem_append, not_or] at hr
    rw [c2 n r hr.2, c1 n r hr.1]
  · have second : ∀ p, p ∉ r1 → p ∈ r2 → ∃ q ∈ s''.relations, ∀ n, m.run s.updates init n p = m.run s.updates init n q := by
      intro p hp1 hp2
      obtain ⟨q, hq, hqn⟩ := d2 p hp2
      exact ⟨q, hq, fun n => by rw [← c1 n p hp1, hqn n, c1 n q (notin q (sub q hq))]⟩
    intro r hr
    by_cases h1 : r ∈ r1
    · obtain ⟨p, hp, hpn⟩ := d1 r h1
      by_cases h2 : p ∈ r2
      · obtain ⟨q, hq, hqn⟩ := second p (notin p hp) h2
        exact ⟨q, hq, fun n => by rw [hpn n, hqn n]⟩
      · exact ⟨p, by rw [a2]; exact List.mem_filter.mpr ⟨hp, by simpa using h2⟩, hpn⟩
    · exact second r h1 ((List.mem_append.mp hr).resolve_left h1)

theorem Def.mem {us : List (Update F)} {a : String} {d : Dataflow F} (h : Def us a d) : (⟨a, d⟩ : Update F) ∈ us := by
  have : (⟨a, d⟩ : Update F) ∈ us.filter (·.target = a) := by unfold Def at h; rw [h]; simp
  exact (List.mem_filter.mp this).1

theorem merge_targets {s : Stratum F} (h : Targets s) (p t : String) : Targets (merge p t s) := by
  intro u hu
  simp only [merge, List.mem_map, List.mem_filter] at hu ⊢
  obtain ⟨v, ⟨hv, hvt⟩, rfl⟩ := hu
  exact ⟨h v hv, hvt⟩

theorem merge_sim (m : Sem F S R) (init : String → S) (s : Stratum F) {p t : String} {d : Dataflow F} (hpt : p ≠ t)
    (hp : Def s.updates p d) (ht : Def s.updates t d) (hi : init t = init p) (htmp : isTemp t = true) (hT : Targets s) :
    Sim m init s (merge p t s) := by
  refine ⟨[t], by simp [merge], by simpa using htmp, ?_, ?_⟩
  · intro n r hr
    exact merge_run m s init hpt hp ht hi n r (by simpa using hr)
  · intro r hr
    obtain rfl := List.mem_singleton.mp hr
    refine ⟨p, ?_, run_same m s.updates init hp ht hi⟩
    simp only [merge, List.mem_filter]
    exact ⟨hT _ hp.mem, by simpa using hpt⟩

/-- The relations of a set are all defined by one dataflow. -/
def Uniform (us : List (Update F)) (set : List String) : Prop := ∃ d, ∀ a ∈ set, Def us a d ∧ isTemp a = true

theorem mergeRest (m : Sem F S R) (init : String → S) (hinit : ∀ a b, isTemp a = true → isTemp b = true → init a = init b) (p : String) :
    ∀ (ts : List String) (s : Stratum F), (p :: ts).Nodup → Uniform s.updates (p :: ts) → Targets s →
      Sim m init s (ts.foldl (fun s t => merge p t s) s) ∧ Targets (ts.foldl (fun s t => merge p t s) s) ∧
      ∀ set, (∀ a ∈ set, a ∉ p :: ts) → Uniform s.updates set → Uniform (ts.foldl (fun s t => merge p t s) s).updates set
  | [], s, _, _, hT => ⟨Sim.refl m init s, hT, fun _ _ h => h⟩
  | t :: ts, s, hnd, ⟨d, hd⟩, hT => by
    have hpt : p ≠ t := by intro h; subst h; simp at hnd
    have hp := hd p (by simp)
    have ht := hd t (by simp)
    have hs := merge_sim m init s hpt hp.1 ht.1 (hinit t p ht.2 hp.2) ht.2 hT
    have hnd' : (p :: ts).Nodup := by
      simp only [List.nodup_cons, List.mem_cons, not_or] at hnd ⊢
      exact ⟨hnd.1.2, hnd.2.2⟩
    have hU : Uniform (merge p t s).updates (p :: ts) := by
      refine ⟨subst t p d, fun a ha => ?_⟩
      have hat : a ≠ t := by
        rintro rfl
        rcases List.mem_cons.mp ha with h | h
        · exact hpt h.symm
        · simp only [List.nodup_cons] at hnd; exact hnd.2.1 h
      have := hd a (by rcases List.mem_cons.mp ha with h | h <;> simp [h])
      exact ⟨this.1.merge p t hat, this.2⟩
    obtain ⟨h1, h2, h3⟩ := mergeRest m init hinit p ts (merge p t s) hnd' hU (merge_targets hT p t)
    refine ⟨hs.trans h1, h2, fun set hset ⟨e, he⟩ => h3 set ?_ ⟨subst t p e, fun a ha => ?_⟩⟩
    · intro a ha h; exact hset a ha (by rcases List.mem_cons.mp h with h | h <;> simp [h])
    · exact ⟨(he a ha).1.merge p t (fun h => hset a ha (by simp [h])), (he a ha).2⟩

theorem mergeSet_sim (m : Sem F S R) (init : String → S) (hinit : ∀ a b, isTemp a = true → isTemp b = true → init a = init b)
    (set : List String) (s : Stratum F) (hnd : set.Nodup) (hU : Uniform s.updates set) (hT : Targets s) :
    Sim m init s (mergeSet s set) ∧ Targets (mergeSet s set) ∧
      ∀ set', (∀ a ∈ set', a ∉ set) → Uniform s.updates set' → Uniform (mergeSet s set).updates set' := by
  match set with
  | [] => exact ⟨Sim.refl m init s, hT, fun _ _ h => h⟩
  | [p] => exact ⟨Sim.refl m init s, hT, fun _ _ h => h⟩
  | p :: t :: rest => exact mergeRest m init hinit p (t :: rest) s hnd hU hT

theorem mergeSets_sim (m : Sem F S R) (init : String → S) (hinit : ∀ a b, isTemp a = true → isTemp b = true → init a = init b)
    (order : List String → List String) (hord : ∀ l, (order l).Perm l) : ∀ (sets : List (List String)) (s : Stratum F),
    (∀ set ∈ sets, set.Nodup) → sets.Pairwise (fun a b => ∀ x ∈ b, x ∉ a) → (∀ set ∈ sets, Uniform s.updates set) → Targets s →
      Sim m init s (sets.foldl (fun s set => mergeSet s (order set)) s) ∧ Targets (sets.foldl (fun s set => mergeSet s (order set)) s)
  | [], s, _, _, _, hT => ⟨Sim.refl m init s, hT⟩
  | set :: sets, s, hnd, hdis, hU, hT => by
    have hperm := hord set
    have hU1 : Uniform s.updates (order set) := by
      obtain ⟨d, hd⟩ := hU set (by simp)
      exact ⟨d, fun a ha => hd a (hperm.mem_iff.mp ha)⟩
    obtain ⟨h1, h2, h3⟩ := mergeSet_sim m init hinit (order set) s (hperm.nodup_iff.mpr (hnd set (by simp))) hU1 hT
    obtain ⟨hd1, hd2⟩ := List.pairwise_cons.mp hdis
    obtain ⟨g1, g2⟩ := mergeSets_sim m init hinit order hord sets (mergeSet s (order set)) (fun x hx => hnd x (by simp [hx])) hd2
      (fun x hx => h3 x (fun a ha h => hd1 x hx a ha (hperm.mem_iff.mp h)) (hU x (by simp [hx]))) h2
    exact ⟨h1.trans g1, g2⟩

/-! ### Equivalence sets -/

theorem mem_setInsert {x y : String} {l : List String} : y ∈ setInsert x l ↔ y = x ∨ y ∈ l := by
  unfold setInsert; split
  · rename_i h; constructor
    · exact Or.inr
    · rintro (rfl | h') <;> assumption
  · simp [or_comm]

theorem nodup_setInsert {x : String} {l : List String} (h : l.Nodup) : (setInsert x l).Nodup := by
  unfold setInsert; split
  · exact h
  · rename_i hx
    rw [List.nodup_append]
    exact ⟨h, by simp, by rintro a ha b hb rfl; exact hx (by simpa using (List.mem_singleton.mp hb) ▸ ha)⟩

theorem mem_foldInsert {y : String} : ∀ {rs l : List String}, y ∈ rs.foldl (fun s r => setInsert r s) l ↔ y ∈ rs ∨ y ∈ l
  | [], l => by simp
  | r :: rs, l => by
    rw [List.foldl_cons, mem_foldInsert, mem_setInsert, List.mem_cons]; tauto

theorem nodup_foldInsert : ∀ {rs l : List String}, l.Nodup → (rs.foldl (fun s r => setInsert r s) l).Nodup
  | [], _, h => h
  | _ :: rs, _, h => by rw [List.foldl_cons]; exact nodup_foldInsert (rs := rs) (nodup_setInsert h)

theorem lookup_rewire (a : String) (i : Nat) (m : List (String × Nat)) : ∀ rs : List String,
    (rs.map (fun r => (r, i)) ++ m).lookup a = if a ∈ rs then some i else m.lookup a
  | [] => by simp
  | r :: rs => by
    rw [List.map_cons, List.cons_append, List.lookup_cons]
    by_cases h : a = r
    · subst h; simp
    · rw [show (a == r) = false by simpa using h, lookup_rewire a i m rs]; simp [h]

/-- What holds of the equivalence sets at any time. -/
structure EqInv (E : String → String → Prop) (q : EqRel) : Prop where
  lookup : ∀ a i, q.map.lookup a = some i ↔ ∃ s, q.sets[i]? = some s ∧ a ∈ s
  nodup : ∀ s ∈ q.sets, s.Nodup
  rel : ∀ s ∈ q.sets, ∀ a ∈ s, ∀ b ∈ s, E a b

/-- Two names are in the same set. -/
def Linked (q : EqRel) (a b : String) : Prop := ∃ i, q.map.lookup a = some i ∧ q.map.lookup b = some i

section
variable {E : String → String → Prop} (symm : ∀ a b, E a b → E b a) (trans : ∀ a b c, E a b → E b c → E a c)
include symm trans

theorem add_inv {q : EqRel} (h : EqInv E q) {r1 r2 : String} (he : E r1 r2) (hne : r1 ≠ r2) :
    ∃ q', q.add r1 r2 = some q' ∧ EqInv E q' ∧ Linked q' r1 r2 ∧ ∀ a b, Linked q a b → Linked q' a b := by
  have e11 : E r1 r1 := trans _ _ _ he (symm _ _ he)
  have e22 : E r2 r2 := trans _ _ _ (symm _ _ he) he
  unfold EqRel.add
  cases h1 : q.map.lookup r1 with
  | none =>
    cases h2 : q.map.lookup r2 with
    | none =>
      refine ⟨_, rfl, ⟨?_, ?_, ?_⟩, ?_, ?_⟩
      · intro a i
        simp only [List.lookup_cons, List.getElem?_append]
        by_cases ha1 : a = r1
        · subst ha1
          simp only [BEq.rfl, if_true, Option.some.injEq]
          constructor
          · rintro rfl; exact ⟨setInsert r2 [a], by simp, mem_setInsert.mpr (by simp)⟩
          · rintro ⟨s, hs, has⟩
            split at hs
            · have := (h.lookup a i).mpr ⟨s, hs, has⟩; rw [h1] at this; cases this
            · rename_i hlt
              rw [List.getElem?_cons] at hs
              split at hs
              · omega
              · simp at hs
        · rw [show (a == r1) = false by simpa using ha1]
          simp only [if_false]
          by_cases ha2 : a = r2
          · subst ha2
            simp only [BEq.rfl, if_true, Option.some.injEq]
            constructor
            · rintro rfl; exact ⟨setInsert a [r1], by simp, mem_setInsert.mpr (by simp)⟩
            · rintro ⟨s, hs, has⟩
              split at hs
              · have := (h.lookup a i).mpr ⟨s, hs, has⟩; rw [h2] at this; cases this
              · rename_i hlt
                rw [List.getElem?_cons] at hs
                split at hs
                · omega
                · simp at hs
          · rw [show (a == r2) = false by simpa using ha2]
            simp only [if_false, h.lookup a i]
            constructor
            · rintro ⟨s, hs, has⟩
              have hlt : i < q.sets.length := by
                by_contra hc; rw [List.getElem?_eq_none (by omega)] at hs; cases hs
              exact ⟨s, by rw [if_pos hlt, hs], has⟩
            · rintro ⟨s, hs, has⟩
              split at hs
              · exact ⟨s, hs, has⟩
              · rw [List.getElem?_cons] at hs
                split at hs
                · obtain rfl := Option.some.inj hs
                  rcases mem_setInsert.mp has with h' | h'
                  · exact absurd h' ha2
                  · exact absurd (List.mem_singleton.mp h') ha1
                · simp at hs
      · intro s hs
        rcases List.mem_append.mp hs with h' | h'
        · exact h.nodup s h'
        · obtain rfl := List.mem_singleton.mp h'; exact nodup_setInsert (by simp)
      · intro s hs
        rcases List.mem_append.mp hs with h' | h'
        · exact h.rel s h'
        · obtain rfl := List.mem_singleton.mp h'
          intro a ha b hb
          rcases mem_setInsert.mp ha with ha' | ha' <;> rcases mem_setInsert.mp hb with hb' | hb'
          · rw [ha', hb']; exact e22
          · rw [ha', List.mem_singleton.mp hb']; exact symm _ _ he
          · rw [hb', List.mem_singleton.mp ha']; exact he
          · rw [List.mem_singleton.mp ha', List.mem_singleton.mp hb']; exact e11
      · refine ⟨q.sets.length, by simp, ?_⟩
        rw [List.lookup_cons, show (r2 == r1) = false by simpa using hne.symm]; simp
      · rintro a b ⟨i, ha, hb⟩
        have na1 : ∀ x i, q.map.lookup x = some i → x ≠ r1 ∧ x ≠ r2 := by
          intro x i hx; constructor
          · rintro rfl; rw [h1] at hx; cases hx
          · rintro rfl; rw [h2] at hx; cases hx
        refine ⟨i, ?_, ?_⟩
        · rw [List.lookup_cons, show (a == r1) = false by simpa using (na1 a i ha).1, List.lookup_cons,
            show (a == r2) = false by simpa using (na1 a i ha).2]; exact ha
        · rw [List.lookup_cons, show (b == r1) = false by simpa using (na1 b i hb).1, List.lookup_cons,
            show (b == r2) = false by simpa using (na1 b i hb).2]; exact hb
    | some i2 =>
      obtain ⟨s2, hs2, hr2⟩ := (h.lookup r2 i2).mp h2
      have hlt : i2 < q.sets.length := by
        by_contra hc; rw [List.getElem?_eq_none (by omega)] at hs2; cases hs2
      have hmem2 : s2 ∈ q.sets := List.mem_of_getElem? hs2
      simp only [hs2, Option.bind_some]
      refine ⟨_, rfl, ⟨?_, ?_, ?_⟩, ?_, ?_⟩
      · intro a i
        simp only [List.lookup_cons, List.getElem?_set]
        by_cases ha1 : a = r1
        · subst ha1
          simp only [BEq.rfl, if_true, Option.some.injEq]
          constructor
          · rintro rfl; exact ⟨_, by rw [if_pos rfl, if_pos hlt], mem_setInsert.mpr (Or.inl rfl)⟩
          · rintro ⟨s, hs, has⟩
            split at hs
            · assumption
            · have := (h.lookup a i).mpr ⟨s, hs, has⟩; rw [h1] at this; cases this
        · rw [show (a == r1) = false by simpa using ha1]
          simp only [h.lookup a i]
          by_cases hi : i2 = i
          · subst hi
            simp only [if_true, hlt, if_pos]
            constructor
            · rintro ⟨s, hs, has⟩
              rw [hs2] at hs; obtain rfl := Option.some.inj hs
              exact ⟨_, rfl, mem_setInsert.mpr (Or.inr has)⟩
            · rintro ⟨s, hs, has⟩
              obtain rfl := Option.some.inj hs
              exact ⟨s2, hs2, (mem_setInsert.mp has).resolve_left ha1⟩
          · simp only [hi, if_false]
      · intro s hs
        rcases List.mem_or_eq_of_mem_set hs with h' | rfl
        · exact h.nodup s h'
        · exact nodup_setInsert (h.nodup s2 hmem2)
      · intro s hs
        rcases List.mem_or_eq_of_mem_set hs with h' | rfl
        · exact h.rel s h'
        · intro a ha b hb
          rcases mem_setInsert.mp ha with ha' | ha' <;> rcases mem_setInsert.mp hb with hb' | hb'
          · rw [ha', hb']; exact e11
          · rw [ha']; exact trans _ _ _ he (h.rel s2 hmem2 r2 hr2 b hb')
          · rw [hb']; exact trans _ _ _ (h.rel s2 hmem2 a ha' r2 hr2) (symm _ _ he)
          · exact h.rel s2 hmem2 a ha' b hb'
      · refine ⟨i2, by simp, ?_⟩
        rw [List.lookup_cons, show (r2 == r1) = false by simpa using hne.symm]; exact h2
      · rintro a b ⟨i, ha, hb⟩
        have na1 : ∀ x i, q.map.lookup x = some i → x ≠ r1 := by
          intro x i hx; rintro rfl; rw [h1] at hx; cases hx
        refine ⟨i, ?_, ?_⟩
        · rw [List.lookup_cons, show (a == r1) = false by simpa using na1 a i ha]; exact ha
        · rw [List.lookup_cons, show (b == r1) = false by simpa using na1 b i hb]; exact hb
  | some i1 =>
    obtain ⟨s1, hs1, hr1⟩ := (h.lookup r1 i1).mp h1
    have hlt1 : i1 < q.sets.length := by
      by_contra hc; rw [List.getElem?_eq_none (by omega)] at hs1; cases hs1
    have hmem1 : s1 ∈ q.sets := List.mem_of_getElem? hs1
    cases h2 : q.map.lookup r2 with
    | none =>
      simp only [hs1, Option.bind_some]
      refine ⟨_, rfl, ⟨?_, ?_, ?_⟩, ?_, ?_⟩
      · intro a i
        simp only [List.lookup_cons, List.getElem?_set]
        by_cases ha1 : a = r2
        · subst ha1
          simp only [BEq.rfl, if_true, Option.some.injEq]
          constructor
          · rintro rfl; exact ⟨_, by rw [if_pos rfl, if_pos hlt1], mem_setInsert.mpr (Or.inl rfl)⟩
          · rintro ⟨s, hs, has⟩
            split at hs
            · assumption
            · have := (h.lookup a i).mpr ⟨s, hs, has⟩; rw [h2] at this; cases this
        · rw [show (a == r2) = false by simpa using ha1]
          simp only [h.lookup a i]
          by_cases hi : i1 = i
          · subst hi
            simp only [if_true, hlt1, if_pos]
            constructor
            · rintro ⟨s, hs, has⟩
              rw [hs1] at hs; obtain rfl := Option.some.inj hs
              exact ⟨_, rfl, mem_setInsert.mpr (Or.inr has)⟩
            · rintro ⟨s, hs, has⟩
              obtain rfl := Option.some.inj hs
              exact ⟨s1, hs1, (mem_setInsert.mp has).resolve_left ha1⟩
          · simp only [hi, if_false]
      · intro s hs
        rcases List.mem_or_eq_of_mem_set hs with h' | rfl
        · exact h.nodup s h'
        · exact nodup_setInsert (h.nodup s1 hmem1)
      · intro s hs
        rcases List.mem_or_eq_of_mem_set hs with h' | rfl
        · exact h.rel s h'
        · intro a ha b hb
          rcases mem_setInsert.mp ha with ha' | ha' <;> rcases mem_setInsert.mp hb with hb' | hb'
          · rw [ha', hb']; exact e22
          · rw [ha']; exact trans _ _ _ (symm _ _ he) (h.rel s1 hmem1 r1 hr1 b hb')
          · rw [hb']; exact trans _ _ _ (h.rel s1 hmem1 a ha' r1 hr1) he
          · exact h.rel s1 hmem1 a ha' b hb'
      · refine ⟨i1, ?_, by simp⟩
        rw [List.lookup_cons, show (r1 == r2) = false by simpa using hne]; exact h1
      · rintro a b ⟨i, ha, hb⟩
        have na1 : ∀ x i, q.map.lookup x = some i → x ≠ r2 := by
          intro x i hx; rintro rfl; rw [h2] at hx; cases hx
        refine ⟨i, ?_, ?_⟩
        · rw [List.lookup_cons, show (a == r2) = false by simpa using na1 a i ha]; exact ha
        · rw [List.lookup_cons, show (b == r2) = false by simpa using na1 b i hb]; exact hb
    | some i2 =>
      obtain ⟨s2, hs2, hr2⟩ := (h.lookup r2 i2).mp h2
      have hlt2 : i2 < q.sets.length := by
        by_contra hc; rw [List.getElem?_eq_none (by omega)] at hs2; cases hs2
      have hmem2 : s2 ∈ q.sets := List.mem_of_getElem? hs2
      by_cases hi : i1 = i2
      · subst hi
        exact ⟨q, by simp, h, ⟨i1, h1, h2⟩, fun _ _ h => h⟩
      · simp only [if_neg hi, hs1, hs2, Option.bind_some]
        have lk : ∀ a, (s2.map (fun r => (r, i1)) ++ q.map).lookup a = if a ∈ s2 then some i1 else q.map.lookup a :=
          fun a => lookup_rewire a i1 q.map s2
        refine ⟨_, rfl, ⟨?_, ?_, ?_⟩, ?_, ?_⟩
        · intro a i
          simp only [lk, List.getElem?_set, List.length_set]
          by_cases ha : a ∈ s2
          · simp only [ha, if_true, Option.some.injEq]
            constructor
            · rintro rfl; exact ⟨_, by rw [if_pos rfl, if_pos hlt1], mem_foldInsert.mpr (Or.inl ha)⟩
            · rintro ⟨s, hs, has⟩
              split at hs
              · assumption
              · split at hs
                · obtain rfl := Option.some.inj hs; cases has
                · rename_i hne2
                  have e1 := (h.lookup a i).mpr ⟨s, hs, has⟩
                  have e2 := (h.lookup a i2).mpr ⟨s2, hs2, ha⟩
                  rw [e1] at e2
                  exact absurd (Option.some.inj e2).symm hne2
          · simp only [ha, if_false, h.lookup a i]
            by_cases hi1 : i1 = i
            · subst hi1
              simp only [if_true, hlt1, if_pos]
              constructor
              · rintro ⟨s, hs, has⟩
                rw [hs1] at hs; obtain rfl := Option.some.inj hs
                exact ⟨_, rfl, mem_foldInsert.mpr (Or.inr has)⟩
              · rintro ⟨s, hs, has⟩
                obtain rfl := Option.some.inj hs
                exact ⟨s1, hs1, (mem_foldInsert.mp has).resolve_left ha⟩
            · simp only [hi1, if_false]
              by_cases hi2 : i2 = i
              · subst hi2
                simp only [if_true, hlt2, if_pos]
                constructor
                · rintro ⟨s, hs, has⟩
                  rw [hs2] at hs; obtain rfl := Option.some.inj hs
                  exact absurd has ha
                · rintro ⟨s, hs, has⟩
                  obtain rfl := Option.some.inj hs; cases has
              · simp only [hi2, if_false]
        · intro s hs
          rcases List.mem_or_eq_of_mem_set hs with h' | rfl
          · rcases List.mem_or_eq_of_mem_set h' with h'' | rfl
            · exact h.nodup s h''
            · simp
          · exact nodup_foldInsert (h.nodup s1 hmem1)
        · intro s hs
          rcases List.mem_or_eq_of_mem_set hs with h' | rfl
          · rcases List.mem_or_eq_of_mem_set h' with h'' | rfl
            · exact h.rel s h''
            · simp
          · intro a ha b hb
            have cross : ∀ x ∈ s1, ∀ y ∈ s2, E x y := fun x hx y hy =>
              trans _ _ _ (h.rel s1 hmem1 x hx r1 hr1) (trans _ _ _ he (h.rel s2 hmem2 r2 hr2 y hy))
            rcases mem_foldInsert.mp ha with ha' | ha' <;> rcases mem_foldInsert.mp hb with hb' | hb'
            · exact h.rel s2 hmem2 a ha' b hb'
            · exact symm _ _ (cross b hb' a ha')
            · exact cross a ha' b hb'
            · exact h.rel s1 hmem1 a ha' b hb'
        · refine ⟨i1, ?_, ?_⟩
          · rw [lk]; split
            · rfl
            · exact h1
          · rw [lk, if_pos hr2]
        · rintro a b ⟨i, ha, hb⟩
          by_cases h2' : i = i2
          · subst h2'
            obtain ⟨s, hs, has⟩ := (h.lookup a i).mp ha
            rw [hs2] at hs; obtain rfl := Option.some.inj hs
            obtain ⟨s, hs, hbs⟩ := (h.lookup b i).mp hb
            rw [hs2] at hs; obtain rfl := Option.some.inj hs
            exact ⟨i1, by rw [lk, if_pos has], by rw [lk, if_pos hbs]⟩
          · have notin : ∀ x, q.map.lookup x = some i → x ∉ s2 := by
              intro x hx hxs
              have := (h.lookup x i2).mpr ⟨s2, hs2, hxs⟩
              rw [hx] at this; exact h2' (Option.some.inj this)
            exact ⟨i, by rw [lk, if_neg (notin a ha)]; exact ha, by rw [lk, if_neg (notin b hb)]; exact hb⟩

theorem addPair_inv [DecidableEq F] {q : EqRel} (h : EqInv E q) (u v : Update F)
    (hE : u.flow = v.flow → u.target ≠ v.target → isTemp u.target = true → isTemp v.target = true → E u.target v.target) :
    ∃ q', addPair u v q = some q' ∧ EqInv E q' ∧ (∀ a b, Linked q a b → Linked q' a b) ∧
      (u.flow = v.flow → u.target ≠ v.target → isTemp u.target = true → isTemp v.target = true → Linked q' u.target v.target) := by
  unfold addPair
  by_cases hc : u.flow = v.flow ∧ u.target ≠ v.target ∧ isTemp u.target = true ∧ isTemp v.target = true
  · rw [if_pos hc]
    obtain ⟨q', h1, h2, h3, h4⟩ := add_inv symm trans h (hE hc.1 hc.2.1 hc.2.2.1 hc.2.2.2) hc.2.1
    exact ⟨q', h1, h2, h4, fun _ _ _ _ => h3⟩
  · rw [if_neg hc]
    exact ⟨q, rfl, h, fun _ _ h => h, fun a b c d => absurd ⟨a, b, c, d⟩ hc⟩

theorem inner_inv [DecidableEq F] (u : Update F) : ∀ (vs : List (Update F)) (q : EqRel), EqInv E q →
    (∀ v ∈ vs, u.flow = v.flow → u.target ≠ v.target → isTemp u.target = true → isTemp v.target = true → E u.target v.target) →
    ∃ q', vs.foldlM (fun q v => addPair u v q) q = some q' ∧ EqInv E q' ∧ (∀ a b, Linked q a b → Linked q' a b) ∧
      ∀ v ∈ vs, u.flow = v.flow → u.target ≠ v.target → isTemp u.target = true → isTemp v.target = true → Linked q' u.target v.target
  | [], q, h, _ => ⟨q, rfl, h, fun _ _ h => h, by simp⟩
  | v :: vs, q, h, hE => by
    obtain ⟨q1, a1, a2, a3, a4⟩ := addPair_inv symm trans h u v (hE v (by simp))
    obtain ⟨q2, b1, b2, b3, b4⟩ := inner_inv u vs q1 a2 (fun w hw => hE w (by simp [hw]))
    refine ⟨q2, by rw [List.foldlM_cons, a1]; exact b1, b2, fun a b hl => b3 a b (a3 a b hl), ?_⟩
    intro w hw
    rcases List.mem_cons.mp hw with rfl | hw
    · intro x1 x2 x3 x4; exact b3 _ _ (a4 x1 x2 x3 x4)
    · exact b4 w hw

theorem outer_inv [DecidableEq F] (vs : List (Update F)) : ∀ (us : List (Update F)) (q : EqRel), EqInv E q →
    (∀ u ∈ us, ∀ v ∈ vs, u.flow = v.flow → u.target ≠ v.target → isTemp u.target = true → isTemp v.target = true → E u.target v.target) →
    ∃ q', us.foldlM (fun q u => vs.foldlM (fun q v => addPair u v q) q) q = some q' ∧ EqInv E q' ∧ (∀ a b, Linked q a b → Linked q' a b) ∧
      ∀ u ∈ us, ∀ v ∈ vs, u.flow = v.flow → u.target ≠ v.target → isTemp u.target = true → isTemp v.target = true → Linked q' u.target v.target
  | [], q, h, _ => ⟨q, rfl, h, fun _ _ h => h, by simp⟩
  | u :: us, q, h, hE => by
    obtain ⟨q1, a1, a2, a3, a4⟩ := inner_inv symm trans u vs q h (hE u (by simp))
    obtain ⟨q2, b1, b2, b3, b4⟩ := outer_inv vs us q1 a2 (fun w hw => hE w (by simp [hw]))
    refine ⟨q2, by rw [List.foldlM_cons, a1]; exact b1, b2, fun a b hl => b3 a b (a3 a b hl), ?_⟩
    intro w hw
    rcases List.mem_cons.mp hw with rfl | hw
    · intro v hv x1 x2 x3 x4; exact b3 _ _ (a4 v hv x1 x2 x3 x4)
    · exact b4 w hw

end

/-- Sets of a good state do not overlap. -/
theorem EqInv.disjoint {E : String → String → Prop} {q : EqRel} (h : EqInv E q) : q.sets.Pairwise (fun a b => ∀ x ∈ b, x ∉ a) := by
  rw [List.pairwise_iff_getElem]
  intro i j hi hj hij x hx hx'
  have e1 := (h.lookup x i).mpr ⟨_, List.getElem?_eq_getElem hi, hx'⟩
  have e2 := (h.lookup x j).mpr ⟨_, List.getElem?_eq_getElem hj, hx⟩
  rw [e1] at e2
  have := Option.some.inj e2
  omega

/-- Both names are temporaries with the same single definition. -/
def SameDef (us : List (Update F)) (a b : String) : Prop :=
  ∃ d, Def us a d ∧ Def us b d ∧ isTemp a = true ∧ isTemp b = true

theorem SameDef.symm {us : List (Update F)} (a b : String) : SameDef us a b → SameDef us b a :=
  fun ⟨d, h1, h2, h3, h4⟩ => ⟨d, h2, h1, h4, h3⟩

theorem SameDef.trans {us : List (Update F)} (a b c : String) : SameDef us a b → SameDef us b c → SameDef us a c := by
  rintro ⟨d, h1, h2, h3, h4⟩ ⟨e, g1, g2, g3, g4⟩
  have : d = e := by
    unfold Def at h2 g1; rw [h2] at g1
    simpa using g1
  subst this
  exact ⟨d, h1, g2, h3, g4⟩

theorem single_def {s : Stratum F} (h : SingleTemps s) {u : Update F} (hu : u ∈ s.updates) (ht : isTemp u.target = true) :
    Def s.updates u.target u.flow := by
  have hl := h u.target ht
  have hm : u ∈ s.updates.filter (·.target = u.target) := List.mem_filter.mpr ⟨hu, by simp⟩
  unfold Def
  match hf : s.updates.filter (·.target = u.target) with
  | [] => rw [hf] at hm; cases hm
  | [v] => rw [hf] at hm; rw [List.mem_singleton.mp hm] at hf ⊢; exact hf
  | v :: w :: l => rw [hf] at hl; simp at hl

/-- The sets found in a stratum with singly defined temporaries. -/
theorem equivalences_spec [DecidableEq F] {s : Stratum F} (hs : SingleTemps s) :
    ∃ q, equivalences s.updates = some q ∧ EqInv (SameDef s.updates) q ∧
      ∀ u ∈ s.updates, ∀ v ∈ s.updates, u.flow = v.flow → u.target ≠ v.target → isTemp u.target = true → isTemp v.target = true →
        Linked q u.target v.target := by
  have h0 : EqInv (SameDef s.updates) (⟨[], []⟩ : EqRel) := ⟨by intro a i; simp, by simp, by simp⟩
  obtain ⟨q, h1, h2, _, h4⟩ := outer_inv SameDef.symm SameDef.trans s.updates s.updates _ h0 (by
    intro u hu v hv hf _ tu tv
    exact ⟨u.flow, single_def hs hu tu, hf ▸ single_def hs hv tv, tu, tv⟩)
  exact ⟨q, h1, h2, h4⟩

theorem uniform_of_inv {us : List (Update F)} {q : EqRel} (h : EqInv (SameDef us) q) : ∀ set ∈ q.sets, Uniform us set := by
  intro set hset
  match set, hset with
  | [], _ => exact ⟨.leaf (.unit (.tup [])), by simp⟩
  | p :: rest, hset =>
    obtain ⟨d, hd, _, _, _⟩ := h.rel _ hset p (by simp) p (by simp)
    refine ⟨d, fun a ha => ?_⟩
    obtain ⟨e, he, hp, ta, _⟩ := h.rel _ hset a ha p (by simp)
    have : e = d := by unfold Def at hp hd; rw [hp] at hd; simpa using hd
    subst this
    exact ⟨he, ta⟩

/-! ### Termination of the optimization loop -/

/-- The number of projections of a dataflow. -/
def projects : Dataflow F → Nat
  | .leaf _ => 0
  | .un _ d => projects d
  | .bin _ d1 d2 => projects d1 + projects d2
  | .project d _ => projects d + 1

theorem subst_projects (s t : String) : ∀ d : Dataflow F, projects (subst s t d) = projects d
  | .leaf _ => rfl
  | .un _ d => by simp only [subst, projects, subst_projects s t d]
  | .bin _ d1 d2 => by simp only [subst, projects, subst_projects s t d1, subst_projects s t d2]
  | .project d _ => by simp only [subst, projects, subst_projects s t d]

theorem wrap_projects (d : Dataflow F) : ∀ p : Option (Expr F), projects (Flow.wrap d p) ≤ projects d + 1
  | none => by simp [Flow.wrap]
  | some e => by simp [Flow.wrap, projects]

theorem cascade_projects : ∀ (d d' : Dataflow F) (p : Option (Expr F)), d.cascade p = some d' →
    projects d' ≤ projects d + (if p.isSome then 1 else 0) ∧
    (nested d = true → projects d' < projects d + (if p.isSome then 1 else 0)) ∧
    (p.isSome = true → (∃ d1 e, d = .project d1 e) → projects d' < projects d + 1)
  | .leaf l, d', p, h => by
    simp only [Flow.cascade, Option.some.injEq] at h
    subst h
    cases p <;> simp [Flow.wrap, projects, nested]
  | .un o d, d', p, h => by
    simp only [Flow.cascade, Option.map_eq_some_iff] at h
    obtain ⟨e, he, rfl⟩ := h
    have ih := cascade_projects d e none he
    simp only [Option.isSome_none, Bool.false_eq_true, if_false, Nat.add_zero] at ih
    cases p with
    | none => simp only [Flow.wrap, projects, nested]; exact ⟨ih.1, ih.2.1, by simp⟩
    | some x =>
      simp only [Flow.wrap, projects, nested, Option.isSome_some, if_true]
      exact ⟨by omega, fun hn => by have := ih.2.1 hn; omega, by simp⟩
  | .bin o d1 d2, d', p, h => by
    simp only [Flow.cascade, Option.bind_eq_some_iff, Option.map_eq_some_iff] at h
    obtain ⟨e1, he1, e2, he2, rfl⟩ := h
    have ih1 := cascade_projects d1 e1 none he1
    have ih2 := cascade_projects d2 e2 none he2
    simp only [Option.isSome_none, Bool.false_eq_true, if_false, Nat.add_zero] at ih1 ih2
    cases p with
    | none =>
      simp only [Flow.wrap, projects, nested, Bool.or_eq_true, Option.isSome_none, Bool.false_eq_true, if_false, Nat.add_zero]
      refine ⟨by omega, fun hn => ?_, by simp⟩
      rcases hn with hn | hn
      · have := ih1.2.1 hn; omega
      · have := ih2.2.1 hn; omega
    | some x =>
      simp only [Flow.wrap, projects, nested, Option.isSome_some, if_true, Bool.or_eq_true]
      refine ⟨by omega, fun hn => ?_, by simp⟩
      rcases hn with hn | hn
      · have := ih1.2.1 hn; omega
      · have := ih2.2.1 hn; omega
  | .project d q, d', none, h => by
    simp only [Flow.cascade] at h
    have ih := cascade_projects d d' (some q) h
    simp only [Option.isSome_some, if_true] at ih
    refine ⟨by simp only [projects, Option.isSome_none, Bool.false_eq_true, if_false, Nat.add_zero]; exact ih.1, fun hn => ?_, by simp⟩
    simp only [projects, Option.isSome_none, Bool.false_eq_true, if_false, Nat.add_zero]
    cases d with
    | project d1 e => exact ih.2.2 trivial ⟨d1, e, rfl⟩
    | leaf l => simp [nested] at hn
    | un o d => exact ih.2.1 (by simpa [nested] using hn)
    | bin o d1 d2 => exact ih.2.1 (by simpa [nested] using hn)
  | .project d q, d', some x, h => by
    simp only [Flow.cascade, Option.bind_eq_some_iff] at h
    obtain ⟨e, _, h⟩ := h
    have ih := cascade_projects d d' (some e) h
    simp only [Option.isSome_some, if_true] at ih ⊢
    simp only [projects]
    exact ⟨by omega, fun _ => by omega, fun _ _ => by omega⟩

/-- A measure of a list of updates: it goes down in every turn that changes something. -/
def size (us : List (Update F)) : Nat := (us.map (fun u => projects u.flow + 1)).sum

theorem filter_size (us : List (Update F)) (p : Update F → Bool) : size (us.filter p) ≤ size us := by
  induction us with
  | nil => simp
  | cons u us ih =>
    rw [List.filter_cons]
    split <;> simp only [size, List.map_cons, List.sum_cons] at * <;> omega

theorem filter_size_lt (us : List (Update F)) (p : Update F → Bool) (u : Update F) (hu : u ∈ us) (hp : p u = false) :
    size (us.filter p) < size us := by
  induction us with
  | nil => cases hu
  | cons v us ih =>
    rw [List.filter_cons]
    rcases List.mem_cons.mp hu with rfl | hu
    · rw [if_neg (by simp [hp])]
      have := filter_size us p
      simp only [size, List.map_cons, List.sum_cons] at *; omega
    · have := ih hu
      split <;> simp only [size, List.map_cons, List.sum_cons] at * <;> omega

theorem map_size (us : List (Update F)) (s t : String) :
    size (us.map (fun u => (⟨u.target, subst s t u.flow⟩ : Update F))) = size us := by
  simp only [size, List.map_map]
  congr 1
  apply List.map_congr_left
  intro u _
  simp [subst_projects]

theorem merge_size (p t : String) (s : Stratum F) : size (merge p t s).updates ≤ size s.updates := by
  simp only [merge, map_size]; exact filter_size _ _

theorem merge_size_lt (p t : String) (s : Stratum F) {d : Dataflow F} (h : Def s.updates t d) :
    size (merge p t s).updates < size s.updates := by
  simp only [merge, map_size]; exact filter_size_lt _ _ _ h.mem (by simp)

theorem foldMerge_size (p : String) : ∀ (ts : List String) (s : Stratum F), size (ts.foldl (fun s t => merge p t s) s).updates ≤ size s.updates
  | [], _ => Nat.le_refl _
  | t :: ts, s => Nat.le_trans (foldMerge_size p ts (merge p t s)) (merge_size p t s)

theorem mergeSet_size (s : Stratum F) (set : List String) : size (mergeSet s set).updates ≤ size s.updates := by
  match set with
  | [] => exact Nat.le_refl _
  | [p] => exact Nat.le_refl _
  | p :: t :: rest => exact foldMerge_size p (t :: rest) s

theorem mergeSet_size_lt (s : Stratum F) (set : List String) (hl : 2 ≤ set.length) (hU : Uniform s.updates set) :
    size (mergeSet s set).updates < size s.updates := by
  match set, hl with
  | p :: t :: rest, _ =>
    obtain ⟨d, hd⟩ := hU
    exact Nat.lt_of_le_of_lt (foldMerge_size p rest (merge p t s)) (merge_size_lt p t s (hd t (by simp)).1)

theorem mergeSets_size (order : List String → List String) : ∀ (sets : List (List String)) (s : Stratum F),
    size (sets.foldl (fun s set => mergeSet s (order set)) s).updates ≤ size s.updates
  | [], _ => Nat.le_refl _
  | set :: sets, s => Nat.le_trans (mergeSets_size order sets _) (mergeSet_size s (order set))

theorem mergeRest_uniform (p : String) : ∀ (ts : List String) (s : Stratum F) (set : List String), (∀ a ∈ set, a ∉ ts) → Uniform s.updates set →
    Uniform (ts.foldl (fun s t => merge p t s) s).updates set
  | [], _, _, _, h => h
  | t :: ts, s, set, hset, ⟨e, he⟩ => mergeRest_uniform p ts (merge p t s) set (fun a ha h => hset a ha (by simp [h]))
      ⟨subst t p e, fun a ha => ⟨(he a ha).1.merge p t (fun h => hset a ha (by simp [h])), (he a ha).2⟩⟩

theorem mergeSet_uniform (s : Stratum F) (set set' : List String) (hd : ∀ a ∈ set', a ∉ set) (hU : Uniform s.updates set') :
    Uniform (mergeSet s set).updates set' := by
  match set with
  | [] => exact hU
  | [p] => exact hU
  | p :: t :: rest => exact mergeRest_uniform p (t :: rest) s set' (fun a ha h => hd a ha (by simp [List.mem_cons.mp h])) hU

theorem mergeSets_size_lt (order : List String → List String) (hord : ∀ l, (order l).Perm l) : ∀ (sets : List (List String)) (s : Stratum F),
    sets.Pairwise (fun a b => ∀ x ∈ b, x ∉ a) → (∀ set ∈ sets, Uniform s.updates set) → sets.any (fun set => 2 ≤ set.length) = true →
    size (sets.foldl (fun s set => mergeSet s (order set)) s).updates < size s.updates
  | [], _, _, _, h => by simp at h
  | set :: sets, s, hdis, hU, h => by
    obtain ⟨hd1, hd2⟩ := List.pairwise_cons.mp hdis
    by_cases hl : 2 ≤ set.length
    · refine Nat.lt_of_le_of_lt (mergeSets_size order sets _) (mergeSet_size_lt s (order set) (by rw [(hord set).length_eq]; exact hl) ?_)
      obtain ⟨d, hd⟩ := hU set (by simp)
      exact ⟨d, fun a ha => hd a ((hord set).mem_iff.mp ha)⟩
    · have h' : sets.any (fun set => 2 ≤ set.length) = true := by
        simpa [hl] using h
      refine Nat.lt_of_lt_of_le (mergeSets_size_lt order hord sets _ hd2 ?_ h') (mergeSet_size s (order set))
      intro x hx
      exact mergeSet_uniform s (order set) x (fun a ha h => hd1 x hx a ha ((hord set).mem_iff.mp h)) (hU x (by simp [hx]))

theorem mergeSets_noop (order : List String → List String) (hord : ∀ l, (order l).Perm l) : ∀ (sets : List (List String)) (s : Stratum F),
    sets.any (fun set => 2 ≤ set.length) = false → sets.foldl (fun s set => mergeSet s (order set)) s = s
  | [], _, _ => rfl
  | set :: sets, s, h => by
    simp only [List.any_cons, Bool.or_eq_false_iff, decide_eq_false_iff_not] at h
    have hl : (order set).length < 2 := by rw [(hord set).length_eq]; omega
    have : mergeSet s (order set) = s := by
      match ho : order set with
      | [] => rfl
      | [p] => rfl
      | p :: t :: rest => rw [ho] at hl; simp only [List.length_cons] at hl; omega
    rw [List.foldl_cons, this]
    exact mergeSets_noop order hord sets s h.2

theorem merge_single {s : Stratum F} (h : SingleTemps s) (p t : String) : SingleTemps (merge p t s) := by
  intro r hr
  by_cases hrt : r = t
  · subst hrt
    have : (merge p r s).updates.filter (·.target = r) = [] := by
      rw [List.filter_eq_nil_iff]
      intro u hu
      simp only [merge, List.mem_map, List.mem_filter] at hu
      obtain ⟨v, ⟨_, hv⟩, rfl⟩ := hu
      simpa using hv
    rw [this]; simp
  · rw [merge_filter p t r s hrt, List.length_map]; exact h r hr

theorem foldMerge_single (p : String) : ∀ (ts : List String) (s : Stratum F), SingleTemps s → SingleTemps (ts.foldl (fun s t => merge p t s) s)
  | [], _, h => h
  | t :: ts, s, h => foldMerge_single p ts (merge p t s) (merge_single h p t)

theorem mergeSets_single (order : List String → List String) : ∀ (sets : List (List String)) (s : Stratum F), SingleTemps s →
    SingleTemps (sets.foldl (fun s set => mergeSet s (order set)) s)
  | [], _, h => h
  | set :: sets, s, h => by
    refine mergeSets_single order sets (mergeSet s (order set)) ?_
    match order set with
    | [] => exact h
    | [p] => exact h
    | p :: t :: rest => exact foldMerge_single p (t :: rest) s h

/-- Everything about one call of the deduplication that the loop needs. -/
theorem dedup_spec [DecidableEq F] (order : List String → List String) (hord : ∀ l, (order l).Perm l) (s : Stratum F) (hs : SingleTemps s) :
    ∃ s' b, dedup order s = some (s', b) ∧ SingleTemps s' ∧ size s'.updates ≤ size s.updates ∧
      (b = true → size s'.updates < size s.updates) ∧ (b = false → s' = s ∧
        ∀ u ∈ s.updates, ∀ v ∈ s.updates, isTemp u.target = true → isTemp v.target = true → u.flow = v.flow → u.target = v.target) := by
  obtain ⟨q, h1, h2, h3⟩ := equivalences_spec hs
  refine ⟨_, _, by unfold dedup; rw [h1]; rfl, mergeSets_single order q.sets s hs, mergeSets_size order q.sets s,
    mergeSets_size_lt order hord q.sets s h2.disjoint (uniform_of_inv h2), fun hb => ⟨mergeSets_noop order hord q.sets s hb, ?_⟩⟩
  intro u hu v hv tu tv hf
  by_contra hne
  obtain ⟨i, l1, l2⟩ := h3 u hu v hv hf hne tu tv
  obtain ⟨s1, g1, m1⟩ := (h2.lookup _ i).mp l1
  obtain ⟨s2, g2, m2⟩ := (h2.lookup _ i).mp l2
  rw [g1] at g2
  obtain rfl := Option.some.inj g2
  have hmem := List.mem_of_getElem? g1
  have hlen : 2 ≤ s1.length := by
    match s1, m1, m2 with
    | [x], m1, m2 => exact absurd ((List.mem_singleton.mp m1).trans (List.mem_singleton.mp m2).symm) hne
    | x :: y :: l, _, _ => simp
  have : q.sets.any (fun set => 2 ≤ set.length) = true := List.any_eq_true.mpr ⟨s1, hmem, by simpa using hlen⟩
  rw [this] at hb; cases hb

/-- Everything about one call of the fusion that the loop needs. -/
theorem cascadeUpdates_spec : ∀ (us us' : List (Update F)),
    us.mapM (fun u : Update F => (u.flow.cascade none).map (fun d => (⟨u.target, d⟩ : Update F))) = some us' →
    us'.map (·.target) = us.map (·.target) ∧ size us' ≤ size us ∧ (us.any (fun u => nested u.flow) = true → size us' < size us)
  | [], us', h => by simp at h; subst h; simp
  | u :: us, us', h => by
    rw [List.mapM_cons] at h
    simp only [Option.bind_eq_bind, Option.bind_eq_some_iff, Option.map_eq_some_iff, Option.pure_def, Option.some.injEq] at h
    obtain ⟨v, ⟨d, hd, rfl⟩, vs, hvs, rfl⟩ := h
    obtain ⟨ih1, ih2, ih3⟩ := cascadeUpdates_spec us vs hvs
    obtain ⟨c1, c2, _⟩ := cascade_projects u.flow d none hd
    simp only [Option.isSome_none, Bool.false_eq_true, if_false, Nat.add_zero] at c1 c2
    refine ⟨by simp [ih1], ?_, ?_⟩
    · simp only [size, List.map_cons, List.sum_cons] at *; omega
    · intro hn
      simp only [List.any_cons, Bool.or_eq_true] at hn
      rcases hn with hn | hn
      · have := c2 hn
        simp only [size, List.map_cons, List.sum_cons] at *; omega
      · have := ih3 hn
        simp only [size, List.map_cons, List.sum_cons] at *; omega

theorem cascade_same : ∀ (d : Dataflow F) (p : Option (Expr F)), nested d = false → (p.isSome = true → ¬ d.IsProject) →
    d.cascade p = some (d.wrap p)
  | .leaf _, _, _, _ => rfl
  | .un o d, p, h, _ => by simp [Flow.cascade, cascade_same d none (by simpa [nested] using h) (by simp), Flow.wrap]
  | .bin o d1 d2, p, h, _ => by
    simp only [nested, Bool.or_eq_false_iff] at h
    simp [Flow.cascade, cascade_same d1 none h.1 (by simp), cascade_same d2 none h.2 (by simp), Flow.wrap]
  | .project d e, none, h, _ => by
    cases d with
    | project d1 e1 => simp [nested] at h
    | leaf l => rfl
    | un o d => simp only [Flow.cascade]; exact cascade_same (.un o d) (some e) (by simpa [nested] using h) (by simp [Flow.IsProject])
    | bin o d1 d2 => simp only [Flow.cascade]; exact cascade_same (.bin o d1 d2) (some e) (by simpa [nested] using h) (by simp [Flow.IsProject])
  | .project d e, some x, h, hp => absurd trivial (hp rfl)

theorem length_filter_target (us us' : List (Update F)) (h : us'.map (·.target) = us.map (·.target)) (r : String) :
    (us'.filter (·.target = r)).length = (us.filter (·.target = r)).length := by
  have key : ∀ l : List (Update F), (l.filter (·.target = r)).length = ((l.map (·.target)).filter (· = r)).length := by
    intro l
    induction l with
    | nil => rfl
    | cons u l ih =>
      rw [List.filter_cons, List.map_cons, List.filter_cons]
      split <;> simp [ih]
  rw [key, key, h]

theorem cascadeStratum_spec (s s' : Stratum F) (b : Bool) (h : cascadeStratum s = some (s', b)) (hs : SingleTemps s) :
    SingleTemps s' ∧ size s'.updates ≤ size s.updates ∧ (b = true → size s'.updates < size s.updates) ∧
    (b = false → s' = s ∧ ∀ u ∈ s.updates, nested u.flow = false) := by
  unfold cascadeStratum at h
  obtain ⟨us, hus, he⟩ := Option.map_eq_some_iff.mp h
  obtain ⟨h1, h2, h3⟩ := cascadeUpdates_spec s.updates us hus
  have e1 : s' = ⟨s.relations, us⟩ := (congrArg Prod.fst he).symm
  have e2 : b = s.updates.any (fun u => nested u.flow) := (congrArg Prod.snd he).symm
  subst e1 e2
  refine ⟨fun r hr => ?_, h2, h3, fun hb => ?_⟩
  · rw [length_filter_target s.updates us h1 r]; exact hs r hr
  · have hn : ∀ u ∈ s.updates, nested u.flow = false := by
      intro u hu
      have := List.any_eq_false.mp hb u hu
      simpa using this
    refine ⟨?_, hn⟩
    have : ∀ (l : List (Update F)), (∀ u ∈ l, nested u.flow = false) →
        l.mapM (fun u : Update F => (u.flow.cascade none).map (fun d => (⟨u.target, d⟩ : Update F))) = some l := by
      intro l
      induction l with
      | nil => intro _; rfl
      | cons u l ih =>
        intro hl
        rw [List.mapM_cons, ih (fun v hv => hl v (by simp [hv])), cascade_same u.flow none (hl u (by simp)) (by simp)]
        rfl
    rw [this s.updates hn] at hus
    rw [← Option.some.inj hus]

/-- The measure of a program. -/
def psize (p : List (Stratum F)) : Nat := (p.map (fun s => size s.updates)).sum

theorem passAll_spec (f : Stratum F → Option (Stratum F × Bool)) (P : Stratum F → Prop) (Q : Stratum F → Prop)
    (hf : ∀ s s' b, f s = some (s', b) → P s → P s' ∧ size s'.updates ≤ size s.updates ∧ (b = true → size s'.updates < size s.updates) ∧
      (b = false → s' = s ∧ Q s)) : ∀ (p p' : List (Stratum F)) (b : Bool), passAll f p = some (p', b) → (∀ s ∈ p, P s) →
    (∀ s ∈ p', P s) ∧ psize p' ≤ psize p ∧ (b = true → psize p' < psize p) ∧ (b = false → p' = p ∧ ∀ s ∈ p, Q s)
  | [], p', b, h, _ => by
    simp only [passAll, Option.some.injEq, Prod.mk.injEq] at h
    obtain ⟨rfl, rfl⟩ := h; simp
  | s :: ss, p', b, h, hP => by
    simp only [passAll, Option.bind_eq_some_iff, Option.map_eq_some_iff] at h
    obtain ⟨r, hr, rs, hrs, he⟩ := h
    have e1 : p' = r.1 :: rs.1 := (congrArg Prod.fst he).symm
    have e2 : b = (r.2 || rs.2) := (congrArg Prod.snd he).symm
    subst e1 e2
    obtain ⟨a1, a2, a3, a4⟩ := hf s r.1 r.2 hr (hP s (by simp))
    obtain ⟨b1, b2, b3, b4⟩ := passAll_spec f P Q hf ss rs.1 rs.2 hrs (fun x hx => hP x (by simp [hx]))
    refine ⟨fun x hx => ?_, ?_, ?_, ?_⟩
    · rcases List.mem_cons.mp hx with rfl | hx
      · exact a1
      · exact b1 x hx
    · simp only [psize, List.map_cons, List.sum_cons] at *; omega
    · intro hb
      rcases (Bool.or_eq_true _ _).mp hb with hb | hb
      · have := a3 hb; simp only [psize, List.map_cons, List.sum_cons] at *; omega
      · have := b3 hb; simp only [psize, List.map_cons, List.sum_cons] at *; omega
    · intro hb
      rw [Bool.or_eq_false_iff] at hb
      obtain ⟨c1, c2⟩ := a4 hb.1
      obtain ⟨d1, d2⟩ := b4 hb.2
      refine ⟨by rw [c1, d1], fun x hx => ?_⟩
      rcases List.mem_cons.mp hx with rfl | hx
      · exact c2
      · exact d2 x hx

theorem optimize_terminates [DecidableEq F] (order : List String → List String) (hord : ∀ l, (order l).Perm l) :
    ∀ (n : Nat) (p : List (Stratum F)), psize p < n → (∀ s ∈ p, SingleTemps s) → optimize order n p ≠ some none ∧
      ∀ p', optimize order n p = some (some p') → ∀ s ∈ p', (∀ u ∈ s.updates, nested u.flow = false) ∧
        ∀ u ∈ s.updates, ∀ v ∈ s.updates, isTemp u.target = true → isTemp v.target = true → u.flow = v.flow → u.target = v.target
  | 0, p, h, _ => by omega
  | n + 1, p, h, hs => by
    unfold optimize
    cases ho : optimizeOnce order p with
    | none => simp
    | some r =>
      simp only [Option.bind_some]
      unfold optimizeOnce at ho
      obtain ⟨r1, hr1, hr2⟩ := Option.bind_eq_some_iff.mp ho
      obtain ⟨r2, hr2, he⟩ := Option.map_eq_some_iff.mp hr2
      obtain ⟨a1, a2, a3, a4⟩ := passAll_spec cascadeStratum SingleTemps (fun s => ∀ u ∈ s.updates, nested u.flow = false)
        (fun s s' b h hs => cascadeStratum_spec s s' b h hs) p r1.1 r1.2 hr1 hs
      obtain ⟨b1, b2, b3, b4⟩ := passAll_spec (dedup order) SingleTemps (fun s => ∀ u ∈ s.updates, ∀ v ∈ s.updates,
          isTemp u.target = true → isTemp v.target = true → u.flow = v.flow → u.target = v.target)
        (fun s s' b h hs => by
          obtain ⟨s1, c, h1, h2, h3, h4, h5⟩ := dedup_spec order hord s hs
          rw [h1] at h
          have e := Option.some.inj h
          have e1 : s1 = s' := congrArg Prod.fst e
          have e2 : c = b := congrArg Prod.snd e
          subst e1 e2
          exact ⟨h2, h3, h4, h5⟩) r1.1 r2.1 r2.2 hr2 a1
      subst he
      by_cases hb : (r1.2 || r2.2) = true
      · rw [if_pos hb]
        have : psize r2.1 < n := by
          rcases (Bool.or_eq_true _ _).mp hb with hb | hb
          · have := a3 hb; omega
          · have := b3 hb; omega
        exact optimize_terminates order hord n r2.1 this b1
      · rw [if_neg hb]
        rw [Bool.not_eq_true, Bool.or_eq_false_iff] at hb
        obtain ⟨c1, c2⟩ := a4 hb.1
        obtain ⟨d1, d2⟩ := b4 hb.2
        refine ⟨by simp, fun p' hp' s hsm => ?_⟩
        obtain rfl := Option.some.inj (Option.some.inj hp')
        rw [d1] at hsm
        exact ⟨c2 s (c1 ▸ hsm), d2 s hsm⟩

end Scallop.Ram
