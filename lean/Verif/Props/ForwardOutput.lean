import Verif.Proof.ForwardOutput
import Mathlib.Algebra.Ring.Nat
import Mathlib.Data.List.Dedup

/-!
# C117: What a forward function returns, and the gradients it passes back
-/

namespace Scallop.ForwardOut

variable {R τ : Type}

/-- **C117**, outputs: under the name of each output relation is the right result for the collections computed for this relation: the probabilities of the
tuples of its mapping for each item, zero where a tuple was not found, or all tuples that were found, once each, with their probabilities.  *Partial*: the
relations asked for are those of the function in their order, or the function has none and those of the call are in the order of the mappings of the call. -/
theorem c117_outputs_partial [DecidableEq τ] [Zero R] (order : List τ → List τ) (ho : ∀ l, (order l).Nodup ∧ ∀ x, x ∈ order l ↔ x ∈ l)
    (outputs : List String) (mappings : List (String × Option (Mapping τ))) (relations : Option (List String)) (given : List (String × Mapping τ))
    (run : List (String → List (Tag R × τ))) (hrun : run ≠ [])
    (hm : mappings.map Prod.fst = outputs) (hpm : ∀ e ∈ mappings, Proper e.2)
    (hpg : ∀ e ∈ given, Proper (some e.2)) (hgn : (given.map Prod.fst).Nodup)
    (h : (outputs ≠ [] ∧ (relations = none ∨ relations = some outputs) ∧ ∀ e ∈ given, e.1 ∈ outputs) ∨
      (outputs = [] ∧ given ≠ [] ∧ relations = some (given.map Prod.fst))) :
    ∃ rels res, (relations = some rels ∨ relations = none ∧ rels = outputs) ∧ forward order outputs mappings relations given run = some res ∧
      res.map Prod.fst = rels ∧ ∀ n r, (n, r) ∈ res → ∃ m, IsMapping mappings given n m ∧ Right (run.map fun coll => coll n) m r := by
  have hne : (given.any fun e => e.2.2.isEmpty) = false := by
    rw [Bool.eq_false_iff]
    intro hc
    obtain ⟨⟨n, s, ts⟩, he, hem⟩ := List.any_eq_true.mp hc
    have := hpg _ he
    cases s
    · exact this (List.isEmpty_iff.mp hem)
    · obtain ⟨t, rfl⟩ := this
      simp at hem
  have hre : run.isEmpty = false := by simpa [List.isEmpty_iff] using hrun
  have main : ∀ rels : List String, askedFor outputs relations = rels → rels ≠ [] → (∀ e ∈ given, e.1 ∈ rels) →
      (∀ n ∈ rels, n ∈ mappings.map Prod.fst ∨ n ∈ given.map Prod.fst) →
      (if outputs.isEmpty then (given.foldl (fun d e => dictSet e.1 (some e.2) d) mappings).map Prod.fst else outputs) = rels →
      ∃ res, forward order outputs mappings relations given run = some res ∧
        res.map Prod.fst = rels ∧ ∀ n r, (n, r) ∈ res → ∃ m, IsMapping mappings given n m ∧ Right (run.map fun coll => coll n) m r := by
    intro rels hrel hr hsub hmap hout
    obtain ⟨res, h1, h2, h3⟩ := process_right order ho rels mappings given run outputs hr hrun hmap hpm hpg hout
    refine ⟨res, ?_, h2, h3⟩
    have hsub' : (given.any fun e => !rels.contains e.1) = false := by
      rw [Bool.eq_false_iff]
      intro hc
      obtain ⟨e, he, hem⟩ := List.any_eq_true.mp hc
      simp [hsub e he] at hem
    have hr' : rels.isEmpty = false := by simpa [List.isEmpty_iff] using hr
    simp only [forward, hrel, hre, hr', hne, hsub', Bool.or_self, Bool.false_eq_true, if_false]
    exact h1
  rcases h with ⟨h1, h2, h3⟩ | ⟨h1, h2, h3⟩
  · have hrel : askedFor outputs relations = outputs := by rcases h2 with rfl | rfl <;> rfl
    obtain ⟨res, hres⟩ := main outputs hrel h1 h3 (fun n hn => Or.inl (by rw [hm]; exact hn)) (by simp [List.isEmpty_iff, h1])
    refine ⟨outputs, res, ?_, hres⟩
    rcases h2 with rfl | rfl
    · exact Or.inr ⟨rfl, rfl⟩
    · exact Or.inl rfl
  · subst h3
    have hmn : mappings = [] := by
      rw [h1] at hm
      exact List.map_eq_nil_iff.mp hm
    obtain ⟨res, hres⟩ := main (given.map Prod.fst) rfl (by simpa using h2) (fun e he => List.mem_map.mpr ⟨e, he, rfl⟩) (fun n hn => Or.inr hn) (by
      have := fold_keys (fun g : Mapping τ => some g) given mappings (by rw [hmn]; simpa using hgn)
      rw [this, h1, hmn]
      simp)
    exact ⟨_, res, Or.inl rfl, hres⟩

/-- Two relations, one with a list of tuples and one without a mapping, for two items. -/
example : (forward (fun l => l.eraseDups) ["a", "b"] [("a", some (false, [1, 2])), ("b", none)] none []
      [fun n => if n = "a" then [(⟨5, []⟩, 2)] else [(⟨6, []⟩, 3)], fun n => if n = "a" then [(⟨7, []⟩, 1)] else [(⟨8, []⟩, 4)]] :
      Option (List (String × Res Nat Nat))) =
    some [("a", .mat [[0, 5], [7, 0]]), ("b", .found [3, 4] [[6, 0], [0, 8]])] := by
  rfl

example : ∀ l : List Nat, (l.dedup).Nodup ∧ ∀ x, x ∈ l.dedup ↔ x ∈ l := fun l => ⟨List.nodup_dedup l, fun _ => List.mem_dedup⟩

/-- **C117**, relations asked for in another order than their mappings: the results are under the wrong names.  Tuple 1 has probability 5 in relation `a` and 7 in `b`. -/
theorem c117_order_false (order : List Nat → List Nat) :
    ∃ run : List (String → List (Tag Nat × Nat)),
      (∀ coll ∈ run, coll "a" = [(⟨5, []⟩, 1)] ∧ coll "b" = [(⟨7, []⟩, 1)]) ∧ run.length = 1 ∧
      forward order [] [] (some ["a", "b"]) [("b", (false, [1])), ("a", (false, [1]))] run = some [("b", .mat [[5]]), ("a", .mat [[7]])] :=
  ⟨[fun n => if n = "a" then [(⟨5, []⟩, 1)] else [(⟨7, []⟩, 1)]], by simp, rfl, rfl⟩

/-- **C117**, other relations than those of the function: the result for the relation asked for is returned as that of the function. -/
theorem c117_other_false (order : List Nat → List Nat) :
    ∃ run : List (String → List (Tag Nat × Nat)),
      (∀ coll ∈ run, coll "a" = [(⟨5, []⟩, 1)] ∧ coll "b" = [(⟨7, []⟩, 1)]) ∧ run.length = 1 ∧
      forward order ["a"] [("a", some (false, [1]))] (some ["b"]) [("b", (false, [1]))] run = some [("a", .mat [[7]])] :=
  ⟨[fun n => if n = "a" then [(⟨5, []⟩, 1)] else [(⟨7, []⟩, 1)]], by simp, rfl, rfl⟩

/-- **C117**, gradients: for each item and each of its inputs, the gradient passed back is the sum, over the outputs, of the gradient of the output times its
derivative by the input, with the dense and with the sparse matrix.  *Partial*: with the sparse matrix, some output must have a derivative. -/
theorem c117_gradients_partial [CommSemiring R] (sparse : Bool) (inputs : List Nat) (outs : List (List (Option (Tag R)))) (gs : List (List R))
    (ho : outs.length = inputs.length) (hg : gs.length = inputs.length)
    (hitem : ∀ (b k : Nat) (o : List (Option (Tag R))) (g : List R), inputs[b]? = some k → outs[b]? = some o → gs[b]? = some g →
      o.length = g.length ∧ ∀ t, some t ∈ o → GoodTag k t)
    (hs : sparse = true → ∃ o ∈ outs, ∃ t, some t ∈ o ∧ t.deriv ≠ []) :
    ∃ res, gradients sparse inputs outs gs = some res ∧ res.length = inputs.length ∧
      ∀ (b k : Nat) (o : List (Option (Tag R))) (g : List R), inputs[b]? = some k → outs[b]? = some o → gs[b]? = some g →
        ∃ l, res[b]? = some l ∧ l.length = k ∧ ∀ j, j < k → ∃ x, l[j]? = some x ∧ Chain o g j x :=
  gradients_chain sparse inputs outs gs ho hg hitem hs

/-- Two items with different numbers of inputs and a missing output. -/
example : ∀ sparse, gradients sparse [3, 1] [[some ⟨1, [(0, 2), (2, 3)]⟩, none], [some ⟨1, [(0, 4)]⟩, some ⟨1, [(0, 5)]⟩]] [[10, 100], [10, 100]] =
    some [[20, 0, 30], [540]] := by
  intro sparse
  cases sparse <;> rfl

/-- **C117**, no derivatives: with the dense matrix all gradients are zero; with the sparse matrix there is an exception. -/
theorem c117_sparse_false [CommSemiring R] (n : Nat) (outs : List (Option (Tag R))) (gs : List R) (hl : outs.length = gs.length)
    (hd : ∀ t, some t ∈ outs → t.deriv = []) :
    (∃ l, gradients false [n + 1] [outs] [gs] = some [l] ∧ l.length = n + 1 ∧ ∀ x ∈ l, x = 0) ∧ gradients true [n + 1] [outs] [gs] = none := by
  constructor
  · obtain ⟨res, h1, h2, h3⟩ := gradients_chain false [n + 1] [outs] [gs] rfl rfl (by
      intro b k o g hb hb' hb''
      cases b with
      | zero =>
        simp at hb hb' hb''
        subst hb hb' hb''
        exact ⟨hl, fun t ht => by simp [GoodTag, hd t ht]⟩
      | succ b => simp at hb) (by simp)
    match res, h2 with
    | [l], _ =>
      obtain ⟨l', hl', hlen, hall⟩ := h3 0 (n + 1) outs gs rfl rfl rfl
      simp at hl'
      subst hl'
      refine ⟨l, h1, hlen, ?_⟩
      intro x hx
      obtain ⟨j, hj⟩ := List.mem_iff_getElem?.mp hx
      obtain ⟨y, hy, ws, hw1, hw2, hw3⟩ := hall j (by rw [← hlen]; exact (List.getElem?_eq_some_iff.mp hj).1)
      rw [hj] at hy
      cases hy
      have hz : ∀ w ∈ ws, w = 0 := by
        intro w hw
        obtain ⟨k, hk⟩ := List.mem_iff_getElem?.mp hw
        have hko : k < outs.length := by rw [← hw1]; exact (List.getElem?_eq_some_iff.mp hk).1
        rcases hw2 k _ w (List.getElem?_eq_getElem hko) hk with ⟨t, ht, hm⟩ | ⟨_, h⟩
        · have := hd t (by rw [← ht]; exact List.getElem_mem hko)
          rw [this] at hm
          cases hm
        · exact h
      rw [hw3]
      clear hw1 hw2 hw3 hall h3 h1 hl hlen hj hx hd
      induction ws generalizing gs with
      | nil => simp
      | cons w ws ih =>
        cases gs with
        | nil => simp
        | cons g gs =>
          have h0 := hz w (by simp)
          have hr := ih gs fun w hw => hz w (List.mem_cons_of_mem _ hw)
          simp [h0, hr]
  · have : outs.all noDeriv = true := by
      rw [List.all_eq_true]
      intro o ho
      cases o with
      | none => rfl
      | some t => simp [noDeriv, hd t ho]
    simp only [gradients, List.foldl_cons, List.foldl_nil, List.all_cons, List.all_nil, Bool.and_true, Bool.true_and]
    rw [if_neg (by omega), if_pos this]

end Scallop.ForwardOut
