import Verif.Proof.Layers
import Verif.Proof.PlanRule

/-!
# What dataflows look at
-/

namespace Scallop.Plan

open Scallop.Back Scallop.Ram

variable {F : Type}

/-- The dataflow looks at relations in `P` for what they contain, at relations in `N` for what they lack, at relations in `R` to aggregate. -/
def Reads (P N R : String → Prop) : Dataflow F → Prop
  | .leaf (.unit _) | .leaf (.untagged _) | .leaf (.foreign _ _) => True
  | .leaf (.rel r) => P r
  | .leaf (.reduce _ p g) => R p ∧ ∀ r, g = .join r → R r
  | .un (.joinIndexedVec r) d => P r ∧ Reads P N R d
  | .un _ d => Reads P N R d
  | .bin .antijoin d1 d2 => Reads P N R d1 ∧ Reads N P R d2
  | .bin .difference d1 d2 => Reads P N R d1 ∧ Reads N P R d2
  | .bin _ d1 d2 => Reads P N R d1 ∧ Reads P N R d2
  | .project d _ => Reads P N R d

theorem Reads.un {P N R : String → Prop} {o : Un F} {d : Dataflow F} (h : Reads P N R d) (ho : ∀ r, o ≠ .joinIndexedVec r) : Reads P N R (.un o d) := by
  cases o <;> first | exact h | exact absurd rfl (ho _)

theorem Reads.mono {P N R P' N' R' : String → Prop} (hP : ∀ r, P r → P' r) (hN : ∀ r, N r → N' r) (hR : ∀ r, R r → R' r) :
    ∀ {d : Dataflow F}, Reads P N R d → Reads P' N' R' d := by
  intro d
  induction d generalizing P N P' N' with
  | leaf l => cases l <;> simp only [Reads] <;> first | exact fun h => h | exact hP _ | exact fun h => ⟨hR _ h.1, fun r hr => hR _ (h.2 r hr)⟩
  | un o d ih =>
    cases o <;> simp only [Reads] <;> first | exact ih hP hN | exact fun h => ⟨hP _ h.1, ih hP hN h.2⟩
  | bin o d1 d2 ih1 ih2 =>
    cases o <;> simp only [Reads] <;>
      first | exact fun h => ⟨ih1 hP hN h.1, ih2 hP hN h.2⟩ | exact fun h => ⟨ih1 hP hN h.1, ih2 hN hP h.2⟩
  | project d e ih => exact ih hP hN

/-- A dataflow yields more if the relations it looks at for what they contain contain more, and those it looks at for what they lack contain less. -/
theorem den_mono {G : Setting F} (hG : G.Local) {d : Dataflow F} : ∀ {P N R : String → Prop} {J J' : Interp (Tup (Val F))},
    (∀ r, P r → ∀ t, J r t → J' r t) → (∀ r, N r → ∀ t, J' r t → J r t) → (∀ r, R r → ∀ t, J r t ↔ J' r t) → Reads P N R d →
    ∀ t, Den (G.world J) d t → Den (G.world J') d t := by
  induction d with
  | leaf l =>
    intro P N R J J' hP hN hR h t
    cases l <;> simp only [Reads] at h <;> simp only [Den]
    · exact fun h => h
    · exact fun h => h
    · exact hP _ h t
    · exact (hG J J' _ _ _ (hR _ h.1) (fun r hr => hR _ (h.2 r hr)) t).mp
    · exact fun h => h
  | un o d ih =>
    intro P N R J J' hP hN hR h t
    cases o <;> simp only [Reads] at h <;> simp only [Den]
    · exact fun ⟨h1, h2⟩ => ⟨ih hP hN hR h t h1, h2⟩
    · exact fun ⟨h1, h2⟩ => ⟨ih hP hN hR h t h1, h2⟩
    · exact ih hP hN hR h t
    · exact fun ⟨k, a, b, ⟨x, h1, h1'⟩, h2, h3⟩ => ⟨k, a, b, ⟨x, ih hP hN hR h.2 _ h1, h1'⟩, hP _ h.1 _ h2, h3⟩
    · exact ih hP hN hR h t
    · exact fun ⟨u, c, h1, h2⟩ => ⟨u, c, ih hP hN hR h _ h1, h2⟩
    · exact fun ⟨h1, h2⟩ => ⟨ih hP hN hR h t h1, h2⟩
    · exact fun ⟨u, vs, ws, h1, h2⟩ => ⟨u, vs, ws, ih hP hN hR h _ h1, h2⟩
  | bin o d1 d2 ih1 ih2 =>
    intro P N R J J' hP hN hR h t
    cases o <;> simp only [Reads] at h <;> simp only [Den]
    · exact fun h' => h'.elim (fun x => Or.inl (ih1 hP hN hR h.1 t x)) (fun x => Or.inr (ih2 hP hN hR h.2 t x))
    · exact fun ⟨k, a, b, ⟨x, h1, h1'⟩, ⟨y, h2, h2'⟩, h3⟩ => ⟨k, a, b, ⟨x, ih1 hP hN hR h.1 _ h1, h1'⟩, ⟨y, ih2 hP hN hR h.2 _ h2, h2'⟩, h3⟩
    · exact fun h' => ⟨ih1 hP hN hR h.1 t h'.1, ih2 hP hN hR h.2 t h'.2⟩
    · exact fun ⟨u, v, h1, h2, h3⟩ => ⟨u, v, ih1 hP hN hR h.1 _ h1, ih2 hP hN hR h.2 _ h2, h3⟩
    · exact fun ⟨h1, h3⟩ => ⟨ih1 hP hN hR h.1 t h1, fun k hk h4 => h3 k hk (ih2 hN hP (fun r hr t => (hR r hr t).symm) h.2 k h4)⟩
    · exact fun ⟨h1, h3⟩ => ⟨ih1 hP hN hR h.1 t h1, fun h4 => h3 (ih2 hN hP (fun r hr t => (hR r hr t).symm) h.2 t h4)⟩
  | project d e ih =>
    intro P N R J J' hP hN hR h t
    exact fun ⟨u, h1, h2⟩ => ⟨u, ih hP hN hR h u h1, h2⟩

theorem den_congr {G : Setting F} (hG : G.Local) {d : Dataflow F} {P N R : String → Prop} {J J' : Interp (Tup (Val F))}
    (hP : ∀ r, P r → ∀ t, J r t ↔ J' r t) (hN : ∀ r, N r → ∀ t, J r t ↔ J' r t) (hR : ∀ r, R r → ∀ t, J r t ↔ J' r t) (h : Reads P N R d) (t) :
    Den (G.world J) d t ↔ Den (G.world J') d t :=
  ⟨den_mono hG (fun r hr t => (hP r hr t).mp) (fun r hr t => (hN r hr t).mpr) hR h t,
    den_mono hG (fun r hr t => (hP r hr t).mpr) (fun r hr t => (hN r hr t).mp) (fun r hr t => (hR r hr t).symm) h t⟩

/-! ## What the translation looks at -/

/-- Names of temporary relations. -/
def tempName (i : Nat) : String := "#temp#" ++ toString i
/-- Names of temporary relations for negated operands. -/
def ntempName (i : Nat) : String := "#ntemp#" ++ toString i

/-- A relation or a permuted copy of it that has been asked for. -/
def Copy (A : String → Prop) (s : St F) (r : String) : Prop := A r ∨ ∃ p π, A p ∧ (p, π) ∈ s.perms ∧ r = permName p π
/-- The relations looked at for what they contain. -/
def RdP (A : String → Prop) (s : St F) (r : String) : Prop := Copy A s r ∨ ∃ d, (r, d) ∈ s.temps
/-- The relations looked at for what they lack. -/
def RdN (B : String → Prop) (s : St F) (r : String) : Prop := Copy B s r ∨ ∃ d, (r, d) ∈ s.negs

/-- A dataflow over relations and copies, of which there is at least one. -/
structure NegFlow (B : String → Prop) (s : St F) (d : Dataflow F) : Prop where
  reads : Reads (Copy B s) (fun _ => False) (fun _ => False) d
  some : flowSources d ≠ []

/-- The state is in order: names are new, dataflows look only at what they should. -/
structure Inv (A B R : String → Prop) (lo : Nat) (s : St F) : Prop where
  low : lo ≤ s.next
  temps : ∀ n d, (n, d) ∈ s.temps → (∃ i, lo ≤ i ∧ i < s.next ∧ n = tempName i) ∧ Reads (RdP A s) (RdN B s) R d
  tnodup : (s.temps.map Prod.fst).Nodup
  negs : ∀ n d, (n, d) ∈ s.negs → (∃ i, i < s.next ∧ n = ntempName i) ∧ NegFlow B s d
  nnodup : (s.negs.map Prod.fst).Nodup
  perms : ∀ p π, (p, π) ∈ s.perms → (A p ∨ B p) ∧ ∃ e : Expr F, permExpr π = some e

theorem Copy.mono {A A' : String → Prop} {s s' : St F} (h : ∀ r, A r → A' r) (hs : St.Le s s') {r} (hc : Copy A s r) : Copy A' s' r := by
  rcases hc with hc | ⟨p, π, h1, h2, h3⟩
  · exact Or.inl (h r hc)
  · exact Or.inr ⟨p, π, h p h1, hs.perms _ h2, h3⟩

theorem NegFlow.mono {B B' : String → Prop} {s s' : St F} (h : ∀ r, B r → B' r) (hs : St.Le s s') {d : Dataflow F} (hd : NegFlow B s d) : NegFlow B' s' d :=
  ⟨hd.reads.mono (fun _ => Copy.mono h hs) (fun _ h => h) (fun _ h => h), hd.some⟩

theorem RdP.mono {A A' : String → Prop} {s s' : St F} (h : ∀ r, A r → A' r) (hs : St.Le s s') {r} (hc : RdP A s r) : RdP A' s' r := by
  rcases hc with hc | ⟨d, hd⟩
  · exact Or.inl (hc.mono h hs)
  · exact Or.inr ⟨d, hs.temps _ hd⟩

theorem RdN.mono {A A' : String → Prop} {s s' : St F} (h : ∀ r, A r → A' r) (hs : St.Le s s') {r} (hc : RdN A s r) : RdN A' s' r := by
  rcases hc with hc | ⟨d, hd⟩
  · exact Or.inl (hc.mono h hs)
  · exact Or.inr ⟨d, hs.negs _ hd⟩

theorem reads_mono {A B R : String → Prop} {s s' : St F} (hs : St.Le s s') {d : Dataflow F} (h : Reads (RdP A s) (RdN B s) R d) :
    Reads (RdP A s') (RdN B s') R d := h.mono (fun _ => RdP.mono (fun _ h => h) hs) (fun _ => RdN.mono (fun _ h => h) hs) (fun _ h => h)

theorem tempName_inj {i j : Nat} (h : tempName i = tempName j) : i = j := toString_inj (String.append_right_inj _ |>.mp h)

theorem ntempName_inj {i j : Nat} (h : ntempName i = ntempName j) : i = j := toString_inj (String.append_right_inj _ |>.mp h)

/-- The result of a translation is in order. -/
structure Out (A B R : String → Prop) (lo : Nat) (neg : Bool) (s : St F) (r : Dataflow F × St F) : Prop where
  le : St.Le s r.2
  inv : Inv A B R lo r.2
  reads : if neg then Reads (RdN B r.2) (fun _ => False) (fun _ => False) r.1 else Reads (RdP A r.2) (RdN B r.2) R r.1

theorem Inv.mono {A B R A' B' R' : String → Prop} {lo : Nat} {s : St F} (hA : ∀ r, A r → A' r) (hB : ∀ r, B r → B' r) (hR : ∀ r, R r → R' r)
    (h : Inv A B R lo s) : Inv A' B' R' lo s :=
  ⟨h.low, fun n d hd => ⟨(h.temps n d hd).1, (h.temps n d hd).2.mono (fun _ => RdP.mono hA (St.Le.refl s)) (fun _ => RdN.mono hB (St.Le.refl s)) hR⟩,
    h.tnodup, fun n d hd => ⟨(h.negs n d hd).1, (h.negs n d hd).2.mono hB (St.Le.refl s)⟩,
    h.nnodup, fun p π hp => ⟨(h.perms p π hp).1.imp (hA p) (hB p), (h.perms p π hp).2⟩⟩

section
variable {A B R : String → Prop} {lo : Nat}

theorem createTemp_out {s : St F} {d : Dataflow F} (hs : Inv A B R lo s) (hd : Reads (RdP A s) (RdN B s) R d) : Out A B R lo false s (createTemp s d) := by
  have hle := createTemp_le s d
  refine ⟨hle, ⟨?_, ?_, ?_, ?_, hs.nnodup, hs.perms⟩, ?_⟩
  · exact Nat.le_succ_of_le hs.low
  · intro n d' h
    rcases List.mem_append.mp h with h | h
    · obtain ⟨⟨i, h1, h2, h3⟩, h4⟩ := hs.temps n d' h
      exact ⟨⟨i, h1, Nat.lt_succ_of_lt h2, h3⟩, reads_mono hle h4⟩
    · have e := List.mem_singleton.mp h
      have e1 := congrArg Prod.fst e
      have e2 := congrArg Prod.snd e
      simp only at e1 e2
      subst e1 e2
      exact ⟨⟨s.next, hs.low, Nat.lt_succ_self _, rfl⟩, reads_mono hle hd⟩
  · simp only [createTemp, List.map_append, List.map_cons, List.map_nil]
    refine List.nodup_append.mpr ⟨hs.tnodup, by simp, ?_⟩
    intro a ha b hb e
    obtain ⟨⟨n, d'⟩, h, rfl⟩ := List.mem_map.mp ha
    obtain ⟨⟨i, _, h2, h3⟩, _⟩ := hs.temps n d' h
    have hb := List.mem_singleton.mp hb
    simp only at e
    rw [h3, hb] at e
    exact absurd (tempName_inj e) (Nat.ne_of_lt h2)
  · intro n d' h
    obtain ⟨⟨i, h2, h3⟩, h4⟩ := hs.negs n d' h
    exact ⟨⟨i, Nat.lt_succ_of_lt h2, h3⟩, h4.mono (fun _ h => h) hle⟩
  · exact Or.inr ⟨d, by simp [createTemp]⟩

theorem createNeg_out {s : St F} {d : Dataflow F} (hs : Inv A B R lo s) (hd : NegFlow B s d) :
    Out A B R lo true s (createNeg s d) := by
  have hle := createNeg_le s d
  refine ⟨hle, ⟨?_, ?_, hs.tnodup, ?_, ?_, hs.perms⟩, ?_⟩
  · exact Nat.le_succ_of_le hs.low
  · intro n d' h
    obtain ⟨⟨i, h1, h2, h3⟩, h4⟩ := hs.temps n d' h
    exact ⟨⟨i, h1, Nat.lt_succ_of_lt h2, h3⟩, reads_mono hle h4⟩
  · intro n d' h
    rcases List.mem_append.mp h with h | h
    · obtain ⟨⟨i, h2, h3⟩, h4⟩ := hs.negs n d' h
      exact ⟨⟨i, Nat.lt_succ_of_lt h2, h3⟩, h4.mono (fun _ h => h) hle⟩
    · have e := List.mem_singleton.mp h
      have e1 := congrArg Prod.fst e
      have e2 := congrArg Prod.snd e
      simp only at e1 e2
      subst e1 e2
      exact ⟨⟨s.next, Nat.lt_succ_self _, rfl⟩, hd.mono (fun _ h => h) hle⟩
  · simp only [createNeg, List.map_append, List.map_cons, List.map_nil]
    refine List.nodup_append.mpr ⟨hs.nnodup, by simp, ?_⟩
    intro a ha b hb e
    obtain ⟨⟨n, d'⟩, h, rfl⟩ := List.mem_map.mp ha
    obtain ⟨⟨i, h2, h3⟩, _⟩ := hs.negs n d' h
    have hb := List.mem_singleton.mp hb
    simp only at e
    rw [h3, hb] at e
    exact absurd (ntempName_inj e) (Nat.ne_of_lt h2)
  · exact Or.inr ⟨d, by simp [createNeg]⟩

theorem Reads.copyN {s : St F} {d : Dataflow F} (h : Reads (Copy B s) (fun _ => False) (fun _ => False) d) :
    Reads (RdN B s) (fun _ => False) (fun _ => False) d := h.mono (fun _ => Or.inl) (fun _ h => h) (fun _ h => h)

/-- In the negative mode only dataflows over relations and copies may be made into relations. -/
theorem process_out {p : DProp} {s s0 : St F} {d : Dataflow F} (h0 : St.Le s0 s) (hs : Inv A B R lo s)
    (hd : if p.isNegative then NegFlow B s d else Reads (RdP A s) (RdN B s) R d) :
    Out A B R lo p.isNegative s0 (process p s d) := by
  unfold process
  cases hn : p.isNegative with
  | true =>
    simp only [hn, if_true] at hd
    simp only [if_true]
    split
    · have := createNeg_out hs hd
      exact ⟨h0.trans this.le, this.inv, this.reads⟩
    · exact ⟨h0, hs, hd.reads.copyN⟩
  | false =>
    simp only [hn, Bool.false_eq_true, if_false] at hd
    simp only [Bool.false_eq_true, if_false]
    split
    · split
      · exact ⟨h0, hs, hd⟩
      · have := createTemp_out hs hd
        exact ⟨h0.trans this.le, this.inv, this.reads⟩
    · exact ⟨h0, hs, hd⟩

/-- What an atom looks at, in the two modes. -/
def Mode (A B : String → Prop) (neg : Bool) (p : String) : Prop := if neg then B p else A p

theorem Inv.addPerm {s : St F} (hs : Inv A B R lo s) {p : String} {π : Perm} {e : Expr F} (hp : A p ∨ B p) (he : permExpr π = some e) :
    Inv A B R lo { s with perms := s.perms ++ [(p, π)] } ∧ St.Le s { s with perms := s.perms ++ [(p, π)] } := by
  have hle : St.Le s { s with perms := s.perms ++ [(p, π)] } := ⟨fun _ h => h, fun _ h => h, fun _ h => by simp [h]⟩
  refine ⟨⟨hs.low, ?_, hs.tnodup, ?_, hs.nnodup, ?_⟩, hle⟩
  · intro n d h
    exact ⟨(hs.temps n d h).1, reads_mono hle (hs.temps n d h).2⟩
  · intro n d h
    exact ⟨(hs.negs n d h).1, (hs.negs n d h).2.mono (fun _ h => h) hle⟩
  · intro q π' h
    rcases List.mem_append.mp h with h | h
    · exact hs.perms q π' h
    · have e' := List.mem_singleton.mp h
      have e1 := congrArg Prod.fst e'
      have e2 := congrArg Prod.snd e'
      simp only at e1 e2
      subst e1 e2
      exact ⟨hp, e, he⟩

/-- The result of a translation over relations and copies. -/
structure OutCopy (A B R : String → Prop) (lo : Nat) (neg : Bool) (s : St F) (r : Dataflow F × St F) : Prop where
  le : St.Le s r.2
  inv : Inv A B R lo r.2
  reads : NegFlow (Mode A B neg) r.2 r.1

theorem OutCopy.process {p : DProp} {s : St F} {r : Dataflow F × St F} (h : OutCopy A B R lo p.isNegative s r) :
    if p.isNegative then NegFlow B r.2 r.1 else Reads (RdP A r.2) (RdN B r.2) R r.1 := by
  have h3 := h.reads
  cases hn : p.isNegative with
  | true =>
    rw [hn] at h3
    exact h3
  | false =>
    rw [hn] at h3
    simp only [Bool.false_eq_true, if_false]
    exact h3.reads.mono (fun _ => Or.inl) (fun _ h => h.elim) (fun _ h => h.elim)

theorem OutCopy.out {p : DProp} {s : St F} {r : Dataflow F × St F} (h : OutCopy A B R lo p.isNegative s r) : Out A B R lo p.isNegative s r := by
  refine ⟨h.le, h.inv, ?_⟩
  have := h.process
  cases hn : p.isNegative with
  | true =>
    simp only [hn, if_true] at this
    exact this.reads.copyN
  | false =>
    simp only [hn, Bool.false_eq_true, if_false] at this
    exact this

theorem eqVarsFrom_nodup : ∀ {ts : List (Term String F)} {seen : List (String × Nat)} {i : Nat}, (ts.filterMap Term.var?).Nodup →
    (∀ x ∈ ts.filterMap Term.var?, seen.lookup x = none) → eqVarsFrom seen i ts = []
  | [], _, _, _, _ => rfl
  | .const _ :: ts, seen, i, hn, hs => eqVarsFrom_nodup (ts := ts) hn hs
  | .var x :: ts, seen, i, hn, hs => by
    rw [List.filterMap_cons] at hn hs
    simp only [Term.var?, List.nodup_cons, List.mem_cons] at hn hs
    rw [eqVarsFrom, hs x (Or.inl rfl)]
    refine eqVarsFrom_nodup hn.2 (fun y hy => ?_)
    have : y ≠ x := fun e => hn.1 (e ▸ hy)
    rw [List.lookup_cons, beq_false_of_ne this]
    exact hs y (Or.inr hy)

theorem atomFilter_nodup {a : Atom String F} (h : (atomVars a).Nodup) : atomFilter a = some none := by
  rw [atomFilter, eqVarsFrom_nodup h (fun _ _ => rfl)]
  rfl

theorem groundNoConst_out {goal : VTuple} {a : Atom String F} {p : DProp} {s : St F} {r} (hs : Inv A B R lo s) (ha : Mode A B p.isNegative a.predicate)
    (h : groundNoConst goal a p s = some r) :
    Out A B R lo p.isNegative s r ∧ ((p.needSorted = false ∨ (atomVars a).Nodup) → OutCopy A B R lo p.isNegative s r) := by
  have hAB : A a.predicate ∨ B a.predicate := by
    unfold Mode at ha
    split at ha
    · exact Or.inr ha
    · exact Or.inl ha
  rw [groundNoConst] at h
  split at h
  · simp only [Option.some.injEq] at h
    subst h
    have : OutCopy A B R lo p.isNegative s (.leaf (.rel a.predicate), s) := ⟨St.Le.refl s, hs, Or.inl ha, by simp [flowSources]⟩
    exact ⟨this.out, fun _ => this⟩
  · simp only [Option.bind_eq_some_iff] at h
    obtain ⟨⟨π, seen⟩, _, e, he, fo, hf, h⟩ := h
    simp only at h he
    obtain ⟨hinv, hle⟩ := hs.addPerm hAB he
    cases fo with
    | some c =>
      simp only at h
      split at h
      · simp only [Option.some.injEq] at h
        rename_i hns
        constructor
        · split at h
          · rename_i hn
            subst h
            rw [hn]
            rw [hn] at ha
            have := createNeg_out (s := { s with perms := s.perms ++ [(a.predicate, π)] })
              (d := .project (.un (.filter c) (.leaf (.rel a.predicate))) e) hinv ⟨Or.inl ha, by simp [flowSources]⟩
            exact ⟨hle.trans this.le, this.inv, this.reads⟩
          · rename_i hn
            subst h
            simp only [Bool.not_eq_true] at hn
            rw [hn]
            rw [hn] at ha
            have := createTemp_out (s := { s with perms := s.perms ++ [(a.predicate, π)] })
              (d := .project (.un (.filter c) (.leaf (.rel a.predicate))) e) hinv (Or.inl (Or.inl ha))
            exact ⟨hle.trans this.le, this.inv, this.reads⟩
        · rintro (hp | hp)
          · simp [hp] at hns
          · rw [atomFilter_nodup hp] at hf
            simp at hf
      · simp only [Option.some.injEq] at h
        subst h
        have : OutCopy A B R lo p.isNegative s (.project (.un (.filter c) (.leaf (.rel a.predicate))) e, s) := ⟨St.Le.refl s, hs, Or.inl ha, by simp [flowSources]⟩
        exact ⟨this.out, fun _ => this⟩
    | none =>
      simp only at h
      split at h
      · simp only [Option.some.injEq] at h
        subst h
        have : OutCopy A B R lo p.isNegative s (.leaf (.rel (permName a.predicate π)), { s with perms := s.perms ++ [(a.predicate, π)] }) :=
          ⟨hle, hinv, Or.inr ⟨a.predicate, π, ha, by simp, rfl⟩, by simp [flowSources]⟩
        exact ⟨this.out, fun _ => this⟩
      · simp only [Option.some.injEq] at h
        subst h
        have : OutCopy A B R lo p.isNegative s (.project (.leaf (.rel a.predicate)) e, s) := ⟨St.Le.refl s, hs, Or.inl ha, by simp [flowSources]⟩
        exact ⟨this.out, fun _ => this⟩

theorem groundFlow_out {E : Env F} {goal : VTuple} {a : Atom String F} {p : DProp} {s : St F} {r} (hs : Inv A B R lo s)
    (ha : Mode A B p.isNegative a.predicate) (hc : p.isNegative = true → NoChain a ∧ NoConstNames (atomVars a)) (h : groundFlow E goal a p s = some r) :
    Out A B R lo p.isNegative s r := by
  rw [groundFlow] at h
  split at h
  · split at h
    · simp only [Option.some.injEq] at h
      subst h
      have : OutCopy A B R lo p.isNegative s (.leaf (.rel a.predicate), s) := ⟨St.Le.refl s, hs, Or.inl ha, by simp [flowSources]⟩
      exact this.out
    · simp only [Option.map_eq_some_iff] at h
      obtain ⟨e, he, rfl⟩ := h
      have : OutCopy A B R lo p.isNegative s (.project (.leaf (.rel a.predicate)) e, s) := ⟨St.Le.refl s, hs, Or.inl ha, by simp [flowSources]⟩
      exact this.out
  · split at h
    · rename_i hconst
      simp only [Option.bind_eq_some_iff] at h
      obtain ⟨st, _, h⟩ := h
      split at h
      · simp only [groundStatic, Option.bind_eq_some_iff, Option.map_eq_some_iff] at h
        obtain ⟨r1, h1, es, _, f, _, e, _, rfl⟩ := h
        obtain ⟨_, h2⟩ := groundNoConst_out (a := subAtom a) (p := { p with needSorted := false }) hs ha h1
        have h2 := h2 (Or.inl rfl)
        refine process_out h2.le h2.inv ?_
        have h4 := h2.process (p := p)
        by_cases hn : p.isNegative = true
        · rw [if_pos hn] at h4 ⊢
          exact ⟨h4.reads, h4.some⟩
        · rw [if_neg hn] at h4 ⊢
          exact h4
      · simp only [groundDynamic, Option.bind_eq_some_iff, Option.map_eq_some_iff] at h
        obtain ⟨r1, h1, e, _, rfl⟩ := h
        obtain ⟨h2, h3⟩ := groundNoConst_out (a := subAtom a) (p := { p with needSorted := true }) hs ha h1
        refine process_out h2.le h2.inv ?_
        cases hn : p.isNegative with
        | false =>
          have h4 := h2.reads
          simp only [hn, Bool.false_eq_true, if_false] at h4 ⊢
          exact h4
        | true =>
          obtain ⟨hc1, hc2⟩ := hc hn
          have hnd : (atomVars (subAtom a)).Nodup := by
            rw [subAtom_atomVars]
            exact constArgs_nodup (hc1 (by simpa using hconst)) hc2
          have h4 := (h3 (Or.inr hnd)).process (p := p)
          rw [hn] at h4
          exact ⟨h4.reads, h4.some⟩
    · exact (groundNoConst_out hs ha h).1

end

end Scallop.Plan
