import Verif.Model.IdAllocator
import Verif.Proof.Proofs

/-!
# Lemmas about identifier allocation
-/

namespace Scallop

theorem alloc_inv : ∀ (ops : List AllocOp) (s : AllocState), AllocState.run ops = some s →
    (∀ p ∈ s.given, ∃ a, s.cells[p.1]? = some a ∧ p.2 < a.id) ∧ s.given.Nodup := by
  intro ops
  induction ops using List.reverseRecOn with
  | nil => intro s h; obtain rfl := Option.some.inj h; simp
  | append_singleton ops op ih =>
    intro s h
    unfold AllocState.run at h
    rw [foldlM_append_singleton, Option.bind_eq_some_iff] at h
    obtain ⟨s1, h1, h2⟩ := h
    obtain ⟨hb, hn⟩ := ih s1 h1
    cases op with
    | new start =>
      obtain rfl := Option.some.inj h2
      refine ⟨fun p hp => ?_, hn⟩
      obtain ⟨a, ha, hlt⟩ := hb p hp
      exact ⟨a, by rw [List.getElem?_append_left (List.getElem?_eq_some_iff.mp ha).1]; exact ha, hlt⟩
    | clone hd =>
      obtain ⟨c, _, rfl⟩ := Option.map_eq_some_iff.mp h2
      exact ⟨hb, hn⟩
    | alloc hd =>
      simp only [AllocState.step, Option.bind_eq_bind, Option.bind_eq_some_iff, IdAllocator.alloc] at h2
      obtain ⟨c, hc, a, ha, h3⟩ := h2
      obtain rfl := Option.some.inj h3
      have hlt : c < s1.cells.length := (List.getElem?_eq_some_iff.mp ha).1
      refine ⟨fun p hp => ?_, ?_⟩
      · by_cases hpc : p.1 = c
        · refine ⟨⟨a.id + 1⟩, by simp [hpc, hlt], ?_⟩
          rcases List.mem_append.mp hp with hp | hp
          · obtain ⟨a', ha', hlt'⟩ := hb p hp
            rw [hpc, ha] at ha'; obtain rfl := Option.some.inj ha'
            exact Nat.lt_succ_of_lt hlt'
          · simp only [List.mem_cons, List.not_mem_nil, or_false] at hp
            subst hp; exact Nat.lt_succ_self _
        · rcases List.mem_append.mp hp with hp | hp
          · obtain ⟨a', ha', hlt'⟩ := hb p hp
            exact ⟨a', by rw [List.getElem?_set_ne (Ne.symm hpc)]; exact ha', hlt'⟩
          · simp only [List.mem_cons, List.not_mem_nil, or_false] at hp
            subst hp; exact absurd rfl hpc
      · rw [List.nodup_append]
        refine ⟨hn, by simp, ?_⟩
        intro p hp q hq hpq
        simp only [List.mem_cons, List.not_mem_nil, or_false] at hq
        subst hpq; subst hq
        obtain ⟨a', ha', hlt'⟩ := hb _ hp
        simp only at ha' hlt'
        rw [ha] at ha'; obtain rfl := Option.some.inj ha'
        exact Nat.lt_irrefl _ hlt'

end Scallop
