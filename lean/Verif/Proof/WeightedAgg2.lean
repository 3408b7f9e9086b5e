import Verif.Proof.WeightedAgg

/-!
# Lemmas about normalization, disjunctions and samplers
-/

namespace Scallop.WAgg

open Scallop.Agg Scallop.Input

variable {V T W Ω K : Type}

/-! ### Normalized weights -/

section
variable [Field K]

theorem foldl_add_sum (l : List K) (a : K) : l.foldl (fun acc v => acc + v) a = a + l.sum := by
  induction l generalizing a with
  | nil => simp
  | cons x l ih => rw [List.foldl_cons, ih, List.sum_cons, add_assoc]

theorem normalizedWeights_spec [DecidableEq K] (exp : K → K) (soft : Bool) (ws : List K) :
    normalizedWeights exp soft ws =
      if ((ws.map (fun v => if soft then exp v else v)).sum = 0 ∧ ws ≠ []) then none
      else some ((ws.map (fun v => if soft then exp v else v)).map (fun v => v / (ws.map (fun v => if soft then exp v else v)).sum)) := by
  unfold normalizedWeights
  cases soft <;> simp [foldl_add_sum]

theorem sum_div (l : List K) (d : K) : (l.map (fun v => v / d)).sum = l.sum / d := by
  induction l with
  | nil => simp
  | cons x l ih => rw [List.map_cons, List.sum_cons, ih, List.sum_cons, add_div]

end

/-! ### Histories -/

theorem History.inv {s : Reg K} {log : List (Option Nat)} (h : History s log) : DisjInv log s.disj ∧ s.probs.length = log.length := by
  induction h with
  | new => exact ⟨DisjInv.empty, rfl⟩
  | @register s s' log p e t _ hr ih =>
    obtain ⟨hd, hl⟩ := ih
    cases e with
    | none =>
      simp only [Reg.register, Option.some.injEq, Prod.mk.injEq] at hr
      obtain ⟨rfl, _⟩ := hr
      exact ⟨hd.tag_none, by simp [hl]⟩
    | some d =>
      obtain ⟨ds', h1, h2⟩ := hd.tag_some d
      simp only [Reg.register, hl, h1, Option.map_some, Option.some.injEq, Prod.mk.injEq] at hr
      obtain ⟨rfl, _⟩ := hr
      exact ⟨h2, by simp [hl]⟩

theorem History.register_some {s : Reg K} {log : List (Option Nat)} (h : History s log) (p : K) (e : Option Nat) :
    ∃ s', s.register p e = some (s', [[.pos s.probs.length]]) ∧ s'.probs = s.probs ++ [p] := by
  obtain ⟨hd, hl⟩ := h.inv
  cases e with
  | none => exact ⟨⟨s.probs ++ [p], s.disj⟩, rfl, rfl⟩
  | some d =>
    obtain ⟨ds', h1, _⟩ := hd.tag_some d
    exact ⟨⟨s.probs ++ [p], ds'⟩, by simp [Reg.register, hl, h1], rfl⟩

section
variable [Field K] [LT K] [DecidableLT K]

/-- The new facts, one after the other. -/
theorem registerAll_spec (x : Nat) (l : List (Tup V × K)) (s : Reg K) (log : List (Option Nat)) (h : History s log) :
    ∃ s' es, registerAll x s l = some (s', es) ∧ s'.probs = s.probs ++ l.map Prod.snd ∧ History s' (log ++ List.replicate l.length (some x)) ∧
      es = l.zipIdx.map (fun q => ⟨q.1.1, [[.pos (s.probs.length + q.2)]]⟩) := by
  induction l generalizing s log with
  | nil => exact ⟨s, [], rfl, by simp, by simpa using h, rfl⟩
  | cons p l ih =>
    obtain ⟨u, np⟩ := p
    obtain ⟨s1, h1, h2⟩ := h.register_some np (some x)
    obtain ⟨s', es, h3, h4, h5, h6⟩ := ih s1 _ (h.register h1)
    refine ⟨s', ⟨u, [[.pos s.probs.length]]⟩ :: es, ?_, ?_, ?_, ?_⟩
    · show (s.register np (some x)).bind _ = _
      rw [h1]
      simp [h3]
    · rw [h4, h2]; simp
    · simpa [List.replicate_succ] using h5
    · rw [h6, h2, List.zipIdx_cons, List.map_cons, List.zipIdx_succ, List.map_map]
      simp only [List.length_append, List.length_cons, List.length_nil, Nat.zero_add, Nat.add_zero, List.cons.injEq, true_and]
      apply List.map_congr_left
      intro q _
      simp [Nat.add_assoc, Nat.add_comm 1]

end

/-! ### Disjunctions -/

section
variable [DecidableEq (Tup V)]

/-- The exclusions of the loop: a new one whenever the arguments change. -/
theorem exclusionLoop_spec (n : Nat) (as : List (List (Tup V))) (ts : List (Tup V)) (hts : ts.map (argsOf n) = as.map some) (a : List (Tup V)) (cur next : Nat) :
    ∃ xs next', exclusionLoop n a cur next ts = some (xs, next') ∧ xs.length = ts.length ∧ next ≤ next' ∧
      (∀ (i : Nat) x, xs[i]? = some x → (x = cur ∨ next ≤ x) ∧ x < max (cur + 1) next') ∧
      (∀ x, xs[0]? = some x → (x = cur ↔ as[0]? = some a) ∨ next ≤ cur) ∧
      ∀ (i : Nat) x y, xs[i]? = some x → xs[i + 1]? = some y → (cur < next → (x = y ↔ as[i]? = as[i + 1]?) ∧ x ≤ y) := by
  induction ts generalizing as a cur next with
  | nil => exact ⟨[], next, rfl, rfl, le_refl _, by simp, by simp, by simp⟩
  | cons t ts ih =>
    cases as with
    | nil => simp at hts
    | cons b as =>
      rw [List.map_cons, List.map_cons, List.cons.injEq] at hts
      obtain ⟨hb, hts⟩ := hts
      unfold exclusionLoop
      rw [hb, Option.bind_some]
      by_cases hab : b = a
      · rw [if_neg (by simpa using hab)]
        obtain ⟨xs, next', h1, h2, h3, h4, h5, h6⟩ := ih as hts a cur next
        refine ⟨cur :: xs, next', by rw [h1]; rfl, by simp [h2], h3, ?_, ?_, ?_⟩
        · intro i x hx
          cases i with
          | zero => simp only [List.getElem?_cons_zero, Option.some.injEq] at hx; subst hx; exact ⟨.inl rfl, by omega⟩
          | succ i => exact h4 i x (by simpa using hx)
        · intro x hx
          simp only [List.getElem?_cons_zero, Option.some.injEq] at hx
          left; simp [← hx, hab]
        · intro i x y hx hy hcn
          cases i with
          | zero =>
            simp only [List.getElem?_cons_zero, Option.some.injEq, Nat.zero_add] at hx hy
            subst hx
            have hy0 : xs[0]? = some y := by simpa using hy
            have h7 := (h4 0 y hy0).1
            refine ⟨?_, by omega⟩
            have := h5 y hy0
            rcases this with h8 | h8
            · rw [eq_comm, h8]; simp [hab, eq_comm]
            · omega
          | succ i =>
            simpa using h6 i x y (by simpa using hx) (by simpa using hy) hcn
      · rw [if_pos hab]
        obtain ⟨xs, next', h1, h2, h3, h4, h5, h6⟩ := ih as hts b next (next + 1)
        refine ⟨next :: xs, next', by rw [h1]; rfl, by simp [h2], by omega, ?_, ?_, ?_⟩
        · intro i x hx
          cases i with
          | zero => simp only [List.getElem?_cons_zero, Option.some.injEq] at hx; subst hx; exact ⟨.inr (le_refl _), by omega⟩
          | succ i => have := h4 i x (by simpa using hx); exact ⟨by omega, by omega⟩
        · intro x hx
          simp only [List.getElem?_cons_zero, Option.some.injEq] at hx
          subst hx
          by_cases hc : next ≤ cur
          · exact .inr hc
          · left
            simp only [List.getElem?_cons_zero, Option.some.injEq, hab, iff_false]
            omega
        · intro i x y hx hy hcn
          cases i with
          | zero =>
            simp only [List.getElem?_cons_zero, Option.some.injEq, Nat.zero_add] at hx hy
            subst hx
            have hy0 : xs[0]? = some y := by simpa using hy
            have h7 := (h4 0 y hy0).1
            refine ⟨?_, by omega⟩
            have := h5 y hy0
            rcases this with h8 | h8
            · rw [eq_comm, h8]; simp [eq_comm]
            · omega
          | succ i =>
            simpa using h6 i x y (by simpa using hx) (by simpa using hy) (by omega)

end

section
variable [Field K] [LinearOrder K]

/-- A tag times a new fact: all proofs use the new fact. -/
theorem mult_new_mem (x : DnfCtx K) (k : Nat) (t : Dnf) (ht : ∀ c ∈ t, c.Sorted) (a : Nat) : ∀ c ∈ x.topKMult k t [[.pos a]], c.Sorted ∧ Literal.pos a ∈ c := by
  intro c hc
  obtain ⟨⟨c1, h1, c2, h2, hm⟩, _⟩ := (topKMult_spec x k t [[.pos a]]).2.2.1 c hc
  simp only [List.mem_singleton] at h2
  subst h2
  have := (Clause.merge_spec c1 [.pos a] (ht c1 h1) (List.pairwise_singleton _ _)).1 c hm
  exact ⟨this.1, (this.2 _).2 (.inr (by simp))⟩

/-- Two facts with the same exclusion have no common proof. -/
theorem mult_exclusive {log : List (Option Nat)} {x : DnfCtx K} (hd : DisjInv log x.disj) (k : Nat) (t1 t2 : Dnf) {a b e : Nat} (hab : a ≠ b)
    (ha : log[a]? = some (some e)) (hb : log[b]? = some (some e)) (h1 : ∀ c ∈ t1, c.Sorted ∧ Literal.pos a ∈ c) (h2 : ∀ c ∈ t2, c.Sorted ∧ Literal.pos b ∈ c) :
    x.topKMult k t1 t2 = [] := by
  rw [List.eq_nil_iff_forall_not_mem]
  intro c hc
  obtain ⟨⟨c1, hc1, c2, hc2, hm⟩, hno⟩ := (topKMult_spec x k t1 t2).2.2.1 c hc
  have hs := ((Clause.merge_spec c1 c2 (h1 c1 hc1).1 (h2 c2 hc2).1).1 c hm).2
  rw [hd.conflict _ (posFactIds_asc c)] at hno
  exact hab (hno a ((mem_posFactIds c a).2 ((hs _).2 (.inl (h1 c1 hc1).2))) b ((mem_posFactIds c b).2 ((hs _).2 (.inr (h2 c2 hc2).2))) e ha hb)

/-- The tags of `disjunct` with a provenance with proofs. -/
theorem disjunctTags_spec (k : Nat) (l : List (Elem (Tup V) Dnf × Nat)) (hl : ∀ p ∈ l, ∀ c ∈ p.1.tag, c.Sorted) (s : Reg K) (log : List (Option Nat)) (h : History s log) :
    ∃ s' es, disjunctTags (fun r => (DnfCtx.mk r.prob r.disj).topKMult k) .exclusiveProb s l = some (s', es) ∧
      History s' (log ++ l.map (fun p => some p.2)) ∧ s'.probs = s.probs ++ l.map (fun _ => 1) ∧ es.map Elem.tuple = l.map (fun p => p.1.tuple) ∧
      ∀ (i : Nat) e p, es[i]? = some e → l[i]? = some p → (∀ c ∈ e.tag, c.Sorted ∧ Literal.pos (s.probs.length + i) ∈ c) ∧ ∀ w, dnfHolds w e.tag → dnfHolds w p.1.tag := by
  induction l generalizing s log with
  | nil => exact ⟨s, [], rfl, by simpa using h, by simp, rfl, by simp⟩
  | cons p l ih =>
    obtain ⟨e, x⟩ := p
    obtain ⟨s1, h1, h2⟩ := h.register_some (1 : K) (some x)
    obtain ⟨s', es, h3, h4, h5, h6, h7⟩ := ih (fun p hp => hl p (by simp [hp])) s1 _ (h.register h1)
    refine ⟨s', ⟨e.tuple, (DnfCtx.mk s1.prob s1.disj).topKMult k e.tag [[.pos s.probs.length]]⟩ :: es, ?_, ?_, ?_, ?_, ?_⟩
    · show (s.register (1 : K) (some x)).bind _ = _
      rw [h1]
      simp [h3]
    · simpa using h4
    · rw [h5, h2]; simp
    · simp [h6]
    · intro i e' p he hp
      cases i with
      | zero =>
        simp only [List.getElem?_cons_zero, Option.some.injEq] at he hp
        subst he; subst hp
        refine ⟨mult_new_mem _ k e.tag (hl (e, x) (by simp)) _, fun w hw => ?_⟩
        exact (topKMult_sound _ k e.tag _ (hl (e, x) (by simp)) (by intro c hc; simp only [List.mem_singleton] at hc; subst hc; exact List.pairwise_singleton _ _) w hw).1
      | succ i =>
        have := h7 i e' p (by simpa using he) (by simpa using hp)
        rw [h2] at this
        simpa [Nat.add_assoc, Nat.add_comm 1] using this

end

end Scallop.WAgg
