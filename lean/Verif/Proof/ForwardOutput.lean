import Verif.Spec.ForwardOutput
import Mathlib.Algebra.BigOperators.Group.List.Basic
import Mathlib.Data.List.Nodup
import Mathlib.Tactic.Ring

/-!
# Lemmas for the outputs of forward functions
-/

namespace Scallop.ForwardOut

variable {R τ : Type}

theorem dictGet_dictSet {κ β : Type} [DecidableEq κ] (k k' : κ) (v : β) : ∀ d : List (κ × β),
    dictGet k (dictSet k' v d) = if k' = k then some v else dictGet k d
  | [] => by simp [dictSet, dictGet]
  | (a, b) :: d => by
    by_cases h : a = k'
    · subst h
      by_cases h2 : a = k <;> simp [dictSet, dictGet, h2]
    · by_cases h2 : a = k
      · subst h2
        simp [dictSet, dictGet, h, Ne.symm h]
      · simp [dictSet, dictGet, h, h2, dictGet_dictSet k k' v d]

theorem dictGet_none {κ β : Type} [DecidableEq κ] (k : κ) : ∀ d : List (κ × β), dictGet k d = none ↔ k ∉ d.map Prod.fst
  | [] => by simp [dictGet]
  | (a, b) :: d => by
    by_cases h : a = k
    · simp [dictGet, h]
    · simp [dictGet, h, dictGet_none k d, Ne.symm h]

theorem dictGet_mem {κ β : Type} [DecidableEq κ] (k : κ) (v : β) : ∀ d : List (κ × β), dictGet k d = some v → (k, v) ∈ d
  | [], h => by simp [dictGet] at h
  | (a, b) :: d, h => by
    by_cases h' : a = k
    · simp only [dictGet, h', if_true, Option.some.injEq] at h
      simp [h', h]
    · simp only [dictGet, h', if_false] at h
      exact List.mem_cons_of_mem _ (dictGet_mem k v d h)

theorem fold_get {κ β ε : Type} [DecidableEq κ] (key : ε → κ) (val : ε → β) (k : κ) : ∀ (l : List ε) (d : List (κ × β)),
    (∃ e ∈ l, key e = k ∧ dictGet k (l.foldl (fun d e => dictSet (key e) (val e) d) d) = some (val e)) ∨
    ((∀ e ∈ l, key e ≠ k) ∧ dictGet k (l.foldl (fun d e => dictSet (key e) (val e) d) d) = dictGet k d)
  | [], d => Or.inr ⟨by simp, rfl⟩
  | e :: l, d => by
    rcases fold_get key val k l (dictSet (key e) (val e) d) with ⟨x, hx, hk, h⟩ | ⟨hn, h⟩
    · exact Or.inl ⟨x, List.mem_cons_of_mem _ hx, hk, h⟩
    · rw [dictGet_dictSet] at h
      by_cases he : key e = k
      · exact Or.inl ⟨e, by simp, he, by simpa [he] using h⟩
      · refine Or.inr ⟨?_, by simpa [he] using h⟩
        intro x hx
        rcases List.mem_cons.mp hx with rfl | hx
        · exact he
        · exact hn x hx

theorem dictOf_get [DecidableEq τ] (coll : List (Tag R × τ)) (t : τ) :
    (∃ tag, (tag, t) ∈ coll ∧ dictGet t (dictOf coll) = some tag) ∨ ((∀ tag, (tag, t) ∉ coll) ∧ dictGet t (dictOf coll) = none) := by
  rcases fold_get (fun e : Tag R × τ => e.2) (fun e => e.1) t coll [] with ⟨e, he, hk, h⟩ | ⟨hn, h⟩
  · exact Or.inl ⟨e.1, by rw [← hk]; exact he, h⟩
  · exact Or.inr ⟨fun tag ht => hn _ ht rfl, h⟩

theorem dictOf_keys [DecidableEq τ] (coll : List (Tag R × τ)) (t : τ) : t ∈ (dictOf coll).map Prod.fst ↔ ∃ tag, (tag, t) ∈ coll := by
  rcases dictOf_get coll t with ⟨tag, h, hg⟩ | ⟨hn, hg⟩
  · constructor
    · intro _; exact ⟨tag, h⟩
    · intro _
      by_contra hc
      rw [(dictGet_none t _).mpr hc] at hg
      cases hg
  · constructor
    · intro h; exact absurd h ((dictGet_none t _).mp hg)
    · rintro ⟨tag, h⟩; exact absurd h (hn tag)

theorem isProb_probOf [DecidableEq τ] [Zero R] (coll : List (Tag R × τ)) (t : τ) : IsProb coll t (probOf (dictGet t (dictOf coll))) := by
  rcases dictOf_get coll t with ⟨tag, h, hg⟩ | ⟨hn, hg⟩
  · exact Or.inl ⟨tag, h, by rw [hg]; rfl⟩
  · exact Or.inr ⟨hn, by rw [hg]; rfl⟩

theorem batched_table [DecidableEq τ] [Zero R] (colls : List (List (Tag R × τ))) (ts : List τ) (hc : colls ≠ []) (ht : ts ≠ []) :
    ∃ m, batchedProb (colls.map fun c => ts.map fun t => dictGet t (dictOf c)) = some m ∧ Table colls ts m ∧
      m = colls.map fun c => ts.map fun t => probOf (dictGet t (dictOf c)) := by
  refine ⟨colls.map fun c => ts.map fun t => probOf (dictGet t (dictOf c)), ?_, ⟨by simp, ?_⟩, rfl⟩
  · rw [batchedProb, if_neg]
    · simp [Function.comp_def]
    · simp [List.isEmpty_iff, hc, ht]
  · intro b coll h
    refine ⟨_, by rw [List.getElem?_map, h]; rfl, by simp, ?_⟩
    intro k t hk
    exact ⟨_, by rw [List.getElem?_map, hk]; rfl, isProb_probOf coll t⟩

theorem listedAll_map {ε : Type} (f : ε → List (Option (Tag R))) : ∀ l : List ε, listedAll (l.map fun e => (.listed (f e) : Out R τ)) = some (l.map f)
  | [] => rfl
  | e :: l => by simp [listedAll, listedAll_map f l]

theorem dictAll_map {ε : Type} (f : ε → List (τ × Tag R)) : ∀ l : List ε, dictAll (l.map fun e => (.dict (f e) : Out R τ)) = some (l.map f)
  | [] => rfl
  | e :: l => by simp [dictAll, dictAll_map f l]

theorem oneOutput_right [DecidableEq τ] [Zero R] (order : List τ → List τ) (ho : ∀ l, (order l).Nodup ∧ ∀ x, x ∈ order l ↔ x ∈ l)
    (m : Option (Mapping τ)) (hm : Proper m) (colls : List (List (Tag R × τ))) (hc : colls ≠ []) :
    ∃ r, oneOutput order m (colls.map fun c => singleOutput m c) = some r ∧ Right colls m r := by
  match m, hm with
  | some (false, ts), hm =>
    obtain ⟨v, h, ht, _⟩ := batched_table colls ts hc hm
    refine ⟨.mat v, ?_, ht⟩
    simp only [oneOutput, singleOutput, listedAll_map, h]
    rfl
  | some (true, _), ⟨t, rfl⟩ =>
    obtain ⟨v, h, ht', hv⟩ := batched_table colls [t] hc (by simp)
    refine ⟨.vec v.flatten, ?_, ?_⟩
    · simp only [oneOutput, singleOutput, listedAll_map, h]
      rfl
    · have : v.flatten = colls.map fun c => probOf (dictGet t (dictOf c)) := by
        rw [hv]
        clear hc h hv ht'
        induction colls with
        | nil => rfl
        | cons c l ih => simpa using ih
      rw [this]
      refine ⟨by simp, ?_⟩
      intro b coll hb
      exact ⟨_, by rw [List.getElem?_map, hb]; rfl, isProb_probOf coll t⟩
  | none, _ =>
    simp only [oneOutput, singleOutput, dictAll_map]
    generalize hT : order ((colls.map fun c => dictOf c).flatMap fun d => d.map Prod.fst) = ts
    have hmem : ∀ t, t ∈ ts ↔ ∃ coll ∈ colls, ∃ tag, (tag, t) ∈ coll := by
      intro t
      rw [← hT, (ho _).2]
      simp only [List.mem_flatMap, List.mem_map (f := dictOf)]
      constructor
      · rintro ⟨d, ⟨c, hc, rfl⟩, h⟩
        exact ⟨c, hc, (dictOf_keys c t).mp h⟩
      · rintro ⟨c, hc, h⟩
        exact ⟨_, ⟨c, hc, rfl⟩, (dictOf_keys c t).mpr h⟩
    have hnd : ts.Nodup := by rw [← hT]; exact (ho _).1
    by_cases hts : ts = []
    · subst hts
      refine ⟨_, rfl, hnd, hmem, by simp, ?_⟩
      intro b coll hb
      exact ⟨[], by simp [hb], rfl, by simp⟩
    · obtain ⟨v, h, ht, _⟩ := batched_table colls ts hc hts
      refine ⟨.found ts v, ?_, hnd, hmem, ht⟩
      simp only [List.isEmpty_iff, hts, if_false, List.map_map, Function.comp_def, h]
      rfl

theorem mapM_exists {α β : Type} (f : α → Option β) (Q : α → β → Prop) : ∀ l : List α, (∀ x ∈ l, ∃ y, f x = some y ∧ Q x y) →
    ∃ ys : List β, l.mapM f = some ys ∧ ys.length = l.length ∧ ∀ (i : Nat) (x : α), l[i]? = some x → ∃ y, ys[i]? = some y ∧ Q x y
  | [], _ => ⟨[], rfl, rfl, by simp⟩
  | x :: l, h => by
    obtain ⟨y, hy, hq⟩ := h x (by simp)
    obtain ⟨ys, hys, hlen, hall⟩ := mapM_exists f Q l fun z hz => h z (List.mem_cons_of_mem _ hz)
    refine ⟨y :: ys, by simp [List.mapM_cons, hy, hys], by simp [hlen], ?_⟩
    intro i z hz
    cases i with
    | zero => simp at hz; subst hz; exact ⟨y, by simp, hq⟩
    | succ i => simp at hz; simpa using hall i z hz

theorem mapM_some {α β : Type} (f : α → Option β) (g : α → β) : ∀ l : List α, (∀ x ∈ l, f x = some (g x)) → l.mapM f = some (l.map g)
  | [], _ => rfl
  | x :: l, h => by
    simp [List.mapM_cons, h x (by simp), mapM_some f g l fun z hz => h z (List.mem_cons_of_mem _ hz)]

theorem current_mapping (mappings : List (String × Option (Mapping τ))) (given : List (String × Mapping τ)) (n : String)
    (hn : n ∈ mappings.map Prod.fst ∨ n ∈ given.map Prod.fst) :
    ∃ m, dictGet n (given.foldl (fun d e => dictSet e.1 (some e.2) d) mappings) = some m ∧ IsMapping mappings given n m := by
  rcases fold_get (fun e : String × Mapping τ => e.1) (fun e => some e.2) n given mappings with ⟨e, he, rfl, h⟩ | ⟨hne, h⟩
  · exact ⟨_, h, Or.inl ⟨e.2, rfl, he⟩⟩
  · have hg : n ∉ given.map Prod.fst := by
      intro hc
      obtain ⟨e, he, hk⟩ := List.mem_map.mp hc
      exact hne e he hk
    rcases hn with hn | hn
    · cases hd : dictGet n mappings with
      | none => exact absurd hn ((dictGet_none n mappings).mp hd)
      | some m =>
        refine ⟨m, ?_, Or.inr ⟨hg, dictGet_mem _ _ _ hd⟩⟩
        rw [← hd]; exact h
    · exact absurd hn hg

theorem dictSet_keys {κ β : Type} [DecidableEq κ] (k : κ) (v : β) : ∀ d : List (κ × β), k ∉ d.map Prod.fst →
    (dictSet k v d).map Prod.fst = d.map Prod.fst ++ [k]
  | [], _ => rfl
  | (a, b) :: d, h => by
    simp only [List.map_cons, List.mem_cons, not_or] at h
    simp [dictSet, Ne.symm h.1, dictSet_keys k v d h.2]

theorem fold_keys {κ β γ : Type} [DecidableEq κ] (f : γ → β) : ∀ (l : List (κ × γ)) (d : List (κ × β)), (d.map Prod.fst ++ l.map Prod.fst).Nodup →
    (l.foldl (fun d e => dictSet e.1 (f e.2) d) d).map Prod.fst = d.map Prod.fst ++ l.map Prod.fst
  | [], d, _ => by simp
  | e :: l, d, h => by
    have h1 : e.1 ∉ d.map Prod.fst := by
      intro hc
      exact (List.nodup_append.mp h).2.2 _ hc e.1 (by simp) rfl
    have hk := dictSet_keys e.1 (f e.2) d h1
    rw [List.foldl_cons, fold_keys f l _ (by rw [hk]; simpa using h), hk]
    simp

/-- What `processOutput` does for outputs in the order of the relations of the call. -/
theorem process_right [DecidableEq τ] [Zero R] (order : List τ → List τ) (ho : ∀ l, (order l).Nodup ∧ ∀ x, x ∈ order l ↔ x ∈ l)
    (rels : List String) (mappings : List (String × Option (Mapping τ))) (given : List (String × Mapping τ)) (run : List (String → List (Tag R × τ)))
    (outs : List String) (hr : rels ≠ []) (hrun : run ≠ []) (hmap : ∀ n ∈ rels, n ∈ mappings.map Prod.fst ∨ n ∈ given.map Prod.fst)
    (hpm : ∀ e ∈ mappings, Proper e.2) (hpg : ∀ e ∈ given, Proper (some e.2))
    (hout : (if outs.isEmpty then (given.foldl (fun d e => dictSet e.1 (some e.2) d) mappings).map Prod.fst else outs) = rels) :
    ∃ res : List (String × Res R τ), processOutput order outs (given.foldl (fun d e => dictSet e.1 (some e.2) d) mappings) (run.map fun coll => rels.map fun r =>
      singleOutput (match dictGet r (given.foldl (fun d e => dictSet e.1 (some e.2) d) mappings) with | some m => m | none => none) (coll r)) = some res ∧
      res.map Prod.fst = rels ∧ ∀ n r, (n, r) ∈ res → ∃ m, IsMapping mappings given n m ∧ Right (run.map fun coll => coll n) m r := by
  have hcur := fun n hn => current_mapping mappings given n (hmap n hn)
  generalize hC : given.foldl (fun d e => dictSet e.1 (some e.2) d) mappings = cur at *
  have key : ∀ x ∈ rels.zipIdx, ∃ y : String × Res R τ, (match dictGet x.1 cur, (run.map fun coll => rels.map fun r =>
        singleOutput (match dictGet r cur with | some m => m | none => none) (coll r)).mapM (fun r => r[x.2]?) with
      | some m, some col => (oneOutput order m col).map fun r => (x.1, r)
      | _, _ => none) = some y ∧ (y.1 = x.1 ∧ ∃ m, IsMapping mappings given x.1 m ∧ Right (run.map fun coll => coll x.1) m y.2) := by
    rintro ⟨n, i⟩ hx
    have hi : rels[i]? = some n := List.mem_zipIdx_iff_getElem?.mp hx
    obtain ⟨m, hm, hism⟩ := hcur n (List.mem_of_getElem? hi)
    have hmp : Proper m := by
      rcases hism with ⟨g, rfl, hg⟩ | ⟨_, hg⟩
      · exact hpg _ hg
      · exact hpm _ hg
    have hcol : (run.map fun coll => rels.map fun r =>
        singleOutput (match dictGet r cur with | some m => m | none => none) (coll r)).mapM (fun r => r[i]?) =
        some ((run.map fun coll => coll n).map fun c => singleOutput m c) := by
      rw [List.mapM_map, mapM_some _ (fun coll => singleOutput m (coll n))]
      · simp [Function.comp_def]
      · intro coll _
        simp [hi, hm]
    obtain ⟨r, hr1, hr2⟩ := oneOutput_right order ho m hmp (run.map fun coll => coll n) (by simpa using hrun)
    refine ⟨(n, r), ?_, rfl, m, hism, hr2⟩
    simp only [hm, hcol, hr1, Option.map_some]
  obtain ⟨ys, h1, h2, h3⟩ := mapM_exists _ _ rels.zipIdx key
  have hz : ∀ (i : Nat) (n : String), rels[i]? = some n → rels.zipIdx[i]? = some (n, i) := by
    intro i n h
    simp [h]
  refine ⟨ys, ?_, ?_, ?_⟩
  · simp only [processOutput, hout]
    rw [if_neg (by simpa [List.isEmpty_iff] using hr), ← h1]
    congr 1
    funext x
    obtain ⟨a, b⟩ := x
    simp only
    split <;> rename_i h <;> simp_all
  · apply List.ext_getElem?
    intro i
    cases hi : rels[i]? with
    | none =>
      have : rels.length ≤ i := List.getElem?_eq_none_iff.mp hi
      simp at h2
      simp; omega
    | some n =>
      obtain ⟨y, hy, hq, _⟩ := h3 i _ (hz i n hi)
      simp [hy, hq]
  · intro n r hnr
    obtain ⟨i, hi⟩ := List.mem_iff_getElem?.mp hnr
    have hlt : i < rels.length := by
      have := (List.getElem?_eq_some_iff.mp hi).1
      simp at h2
      omega
    obtain ⟨y, hy, hq, m, hm, hr⟩ := h3 i _ (hz i _ (List.getElem?_eq_getElem hlt))
    rw [hi] at hy
    cases hy
    simp only at hq
    subst hq
    exact ⟨m, hm, hr⟩

/-! ## Gradients -/

theorem denseRow_spec : ∀ (d : List (Nat × R)) (row : List R), (d.map Prod.fst).Nodup → (∀ e ∈ d, e.1 < row.length) →
    ∃ r, denseRow row d = some r ∧ r.length = row.length ∧ ∀ j, (∀ w, (j, w) ∈ d → r[j]? = some w) ∧ ((∀ w, (j, w) ∉ d) → r[j]? = row[j]?)
  | [], row, _, _ => ⟨row, rfl, rfl, by simp⟩
  | (i, v) :: d, row, hn, hl => by
    have hi : i < row.length := hl (i, v) (by simp)
    simp only [List.map_cons, List.nodup_cons] at hn
    obtain ⟨r, h1, h2, h3⟩ := denseRow_spec d (row.set i v) hn.2 (fun e he => by simpa using hl e (List.mem_cons_of_mem _ he))
    refine ⟨r, by simp [denseRow, hi, h1], by simpa using h2, ?_⟩
    intro j
    refine ⟨?_, ?_⟩
    · intro w hw
      rcases List.mem_cons.mp hw with h | h
      · cases h
        rw [(h3 i).2 (fun w hw => hn.1 (List.mem_map.mpr ⟨_, hw, rfl⟩))]
        simp [hi]
      · exact (h3 j).1 w h
    · intro hno
      rw [(h3 j).2 (fun w hw => hno w (List.mem_cons_of_mem _ hw))]
      have : i ≠ j := by rintro rfl; exact hno v (by simp)
      simp [List.getElem?_set, this]

theorem column_chain [CommSemiring R] (n j : Nat) (hj : j < n) : ∀ (outs : List (Option (Tag R))) (gs : List R), outs.length = gs.length →
    (∀ o ∈ outs, ∀ t, o = some t → GoodTag n t) → ∃ rs x, denseRows n outs = some rs ∧ column j rs gs = some x ∧ Chain outs gs j x
  | [], [], _, _ => ⟨[], 0, rfl, rfl, [], rfl, by simp, by simp⟩
  | o :: outs, g :: gs, hl, hg => by
    obtain ⟨rs, x, h1, h2, ws, hw1, hw2, hw3⟩ := column_chain n j hj outs gs (by simpa using hl) fun o ho => hg o (List.mem_cons_of_mem _ ho)
    have one : ∃ r w, denseRows n (o :: outs) = some (r :: rs) ∧ r[j]? = some w ∧ IsDeriv o j w := by
      cases o with
      | none => exact ⟨List.replicate n 0, 0, by simp [denseRows, h1], by simp [hj], Or.inr ⟨by simp, rfl⟩⟩
      | some t =>
        obtain ⟨hnd, hlt⟩ := hg _ (by simp) t rfl
        obtain ⟨r, hr1, hr2, hr3⟩ := denseRow_spec t.deriv (List.replicate n 0) hnd (by simpa using hlt)
        by_cases h : ∃ w, (j, w) ∈ t.deriv
        · obtain ⟨w, hw⟩ := h
          exact ⟨r, w, by simp [denseRows, h1, hr1], (hr3 j).1 w hw, Or.inl ⟨t, rfl, hw⟩⟩
        · have hno : ∀ w, (j, w) ∉ t.deriv := fun w hw => h ⟨w, hw⟩
          refine ⟨r, 0, by simp [denseRows, h1, hr1], ?_, Or.inr ⟨?_, rfl⟩⟩
          · rw [(hr3 j).2 hno]; simp [hj]
          · rintro t' ht'; cases ht'; exact hno
    obtain ⟨r, w, ha, hb, hc⟩ := one
    refine ⟨r :: rs, w * g + x, ha, by simp [column, hb, h2], w :: ws, by simp [hw1], ?_, by simp [hw3]⟩
    intro k o' w' hk hk'
    cases k with
    | zero => simp at hk hk'; subst hk; subst hk'; exact hc
    | succ k => simp at hk hk'; exact hw2 k o' w' hk hk'

theorem sumAt_append [CommSemiring R] (j : Nat) : ∀ a b : List (Nat × R), sumAt j (a ++ b) = sumAt j a + sumAt j b
  | [], b => by simp [sumAt]
  | (i, w) :: a, b => by
    by_cases h : i = j
    · simp [sumAt, h, sumAt_append j a b]; ring
    · simp [sumAt, h, sumAt_append j a b]

theorem sumAt_none [CommSemiring R] (j : Nat) : ∀ a : List (Nat × R), (∀ w, (j, w) ∉ a) → sumAt j a = 0
  | [], _ => rfl
  | (i, w) :: a, h => by
    have : i ≠ j := by rintro rfl; exact h w (by simp)
    simp only [sumAt, this, if_false]
    exact sumAt_none j a fun w hw => h w (List.mem_cons_of_mem _ hw)

theorem sumAt_one [CommSemiring R] (j : Nat) (w : R) : ∀ a : List (Nat × R), (a.map Prod.fst).Nodup → (j, w) ∈ a → sumAt j a = w
  | (i, v) :: a, hn, h => by
    simp only [List.map_cons, List.nodup_cons] at hn
    rcases List.mem_cons.mp h with h | h
    · cases h
      simp [sumAt, sumAt_none j a (fun w hw => hn.1 (List.mem_map.mpr ⟨_, hw, rfl⟩))]
    · have : i ≠ j := by rintro rfl; exact hn.1 (List.mem_map.mpr ⟨_, h, rfl⟩)
      simp only [sumAt, this, if_false]
      exact sumAt_one j w a hn.2 h

theorem sumAt_scale [CommSemiring R] (j : Nat) (g : R) : ∀ a : List (Nat × R), sumAt j (a.map fun e => (e.1, e.2 * g)) = sumAt j a * g
  | [] => by simp [sumAt]
  | (i, w) :: a => by
    by_cases h : i = j
    · simp [sumAt, h, sumAt_scale j g a, add_mul]
    · simp [sumAt, h, sumAt_scale j g a]

theorem sparse_chain [CommSemiring R] (n j : Nat) : ∀ (outs : List (Option (Tag R))) (gs : List R), outs.length = gs.length →
    (∀ o ∈ outs, ∀ t, o = some t → GoodTag n t) → Chain outs gs j (sumAt j (entries outs gs)) ∧ ∀ e ∈ entries outs gs, e.1 < n
  | [], [], _, _ => ⟨⟨[], rfl, by simp, by simp [entries, sumAt]⟩, by simp [entries]⟩
  | o :: outs, g :: gs, hl, hg => by
    obtain ⟨⟨ws, hw1, hw2, hw3⟩, hlt⟩ := sparse_chain n j outs gs (by simpa using hl) fun o ho => hg o (List.mem_cons_of_mem _ ho)
    have one : ∃ w, IsDeriv o j w ∧ sumAt j (entries (o :: outs) (g :: gs)) = w * g + sumAt j (entries outs gs) ∧
        ∀ e ∈ entries (o :: outs) (g :: gs), e.1 < n := by
      cases o with
      | none => exact ⟨0, Or.inr ⟨by simp, rfl⟩, by simp [entries], by simpa [entries] using hlt⟩
      | some t =>
        obtain ⟨hnd, hlt'⟩ := hg _ (by simp) t rfl
        have hall : ∀ e ∈ entries (some t :: outs) (g :: gs), e.1 < n := by
          intro e he
          simp only [entries, List.mem_append, List.mem_map] at he
          rcases he with ⟨e', he', rfl⟩ | he
          · exact hlt' e' he'
          · exact hlt e he
        by_cases h : ∃ w, (j, w) ∈ t.deriv
        · obtain ⟨w, hw⟩ := h
          exact ⟨w, Or.inl ⟨t, rfl, hw⟩, by rw [entries, sumAt_append, sumAt_scale, sumAt_one j w _ hnd hw], hall⟩
        · have hno : ∀ w, (j, w) ∉ t.deriv := fun w hw => h ⟨w, hw⟩
          refine ⟨0, Or.inr ⟨?_, rfl⟩, by rw [entries, sumAt_append, sumAt_scale, sumAt_none j _ hno], hall⟩
          rintro t' ht'; cases ht'; exact hno
    obtain ⟨w, ha, hb, hc⟩ := one
    refine ⟨⟨w :: ws, by simp [hw1], ?_, by rw [hb, hw3]; simp⟩, hc⟩
    intro k o' w' hk hk'
    cases k with
    | zero => simp at hk hk'; subst hk; subst hk'; exact ha
    | succ k => simp at hk hk'; exact hw2 k o' w' hk hk'

theorem item_chain [CommSemiring R] (sparse : Bool) (n : Nat) (outs : List (Option (Tag R))) (gs : List R) (hl : outs.length = gs.length)
    (hg : ∀ o ∈ outs, ∀ t, o = some t → GoodTag n t) :
    ∃ l, (if sparse then gradSparse n outs gs else gradDense n outs gs) = some l ∧ l.length = n ∧ ∀ j, j < n → ∃ x, l[j]? = some x ∧ Chain outs gs j x := by
  cases sparse with
  | true =>
    refine ⟨(List.range n).map fun j => sumAt j (entries outs gs), ?_, by simp, ?_⟩
    · have hlt := (sparse_chain n 0 outs gs hl hg).2
      rw [if_pos rfl, gradSparse, if_neg]
      simp only [List.any_eq_true, decide_eq_true_eq, not_exists, not_and, not_le]
      exact hlt
    · intro j hj
      exact ⟨_, by simp [hj], (sparse_chain n j outs gs hl hg).1⟩
  | false =>
    by_cases hn : n = 0
    · subst hn
      have : ∃ rs, denseRows 0 outs = some rs := by
        clear hl
        induction outs with
        | nil => exact ⟨_, rfl⟩
        | cons o outs ih =>
          obtain ⟨rs, h⟩ := ih fun o ho => hg o (List.mem_cons_of_mem _ ho)
          cases o with
          | none => exact ⟨[] :: rs, by simp [denseRows, h]⟩
          | some t =>
            obtain ⟨hnd, hlt⟩ := hg _ (by simp) t rfl
            obtain ⟨r, hr, _⟩ := denseRow_spec t.deriv (List.replicate 0 0) hnd (by simpa using hlt)
            exact ⟨r :: rs, by simp only [denseRows, h, hr]⟩
      obtain ⟨rs, h⟩ := this
      exact ⟨[], by simp [gradDense, h], rfl, by simp⟩
    · obtain ⟨rs, _, hrs, _⟩ := column_chain n 0 (by omega) outs gs hl hg
      obtain ⟨ys, h1, h2, h3⟩ := mapM_exists (fun j => column j rs gs) (fun j x => Chain outs gs j x) (List.range n) (by
        intro j hj
        obtain ⟨rs', x, ha, hb, hc⟩ := column_chain n j (by simpa using hj) outs gs hl hg
        rw [hrs] at ha
        cases ha
        exact ⟨x, hb, hc⟩)
      refine ⟨ys, by simp [gradDense, hrs, h1], by simpa using h2, ?_⟩
      intro j hj
      exact h3 j j (by simp [hj])

theorem le_fold_max : ∀ (l : List Nat) (a : Nat), a ≤ l.foldl max a ∧ ∀ k ∈ l, k ≤ l.foldl max a
  | [], a => by simp
  | x :: l, a => by
    obtain ⟨h1, h2⟩ := le_fold_max l (max a x)
    refine ⟨by simp only [List.foldl_cons]; omega, ?_⟩
    intro k hk
    simp only [List.foldl_cons]
    rcases List.mem_cons.mp hk with rfl | hk
    · omega
    · exact h2 k hk

/-- The gradients of a batch, whatever matrix is used, unless the sparse matrix is empty. -/
theorem gradients_chain [CommSemiring R] (sparse : Bool) (inputs : List Nat) (outs : List (List (Option (Tag R)))) (gs : List (List R))
    (ho : outs.length = inputs.length) (hgl : gs.length = inputs.length)
    (hitem : ∀ (b k : Nat) (o : List (Option (Tag R))) (g : List R), inputs[b]? = some k → outs[b]? = some o → gs[b]? = some g →
      o.length = g.length ∧ ∀ t, some t ∈ o → GoodTag k t)
    (hs : sparse = true → ∃ o ∈ outs, ∃ t, some t ∈ o ∧ t.deriv ≠ []) :
    ∃ res, gradients sparse inputs outs gs = some res ∧ res.length = inputs.length ∧
      ∀ (b k : Nat) (o : List (Option (Tag R))) (g : List R), inputs[b]? = some k → outs[b]? = some o → gs[b]? = some g →
        ∃ l, res[b]? = some l ∧ l.length = k ∧ ∀ j, j < k → ∃ x, l[j]? = some x ∧ Chain o g j x := by
  have hmax := (le_fold_max inputs 0).2
  generalize hn : inputs.foldl max 0 = n at hmax
  by_cases h0 : n = 0
  · refine ⟨inputs.map fun _ => [], by simp [gradients, hn, h0], by simp, ?_⟩
    intro b k o g hk _ _
    have := hmax k (List.mem_of_getElem? hk)
    refine ⟨[], ?_, ?_, fun j hj => by omega⟩
    · simp only [List.getElem?_map, hk, Option.map_some]
    · simp only [List.length_nil]; omega
  · have hz : ∀ (b : Nat) (k : Nat) (o : List (Option (Tag R))) (g : List R), (inputs.zip (outs.zip gs))[b]? = some (k, o, g) ↔
        inputs[b]? = some k ∧ outs[b]? = some o ∧ gs[b]? = some g := by
      intro b k o g
      simp only [List.getElem?_zip_eq_some]
    have key : ∀ x ∈ inputs.zip (outs.zip gs), ∃ y, (if sparse then gradSparse n x.2.1 x.2.2 else gradDense n x.2.1 x.2.2).map (List.take x.1) = some y ∧
        (y.length = x.1 ∧ ∀ j, j < x.1 → ∃ v, y[j]? = some v ∧ Chain x.2.1 x.2.2 j v) := by
      rintro ⟨k, o, g⟩ hx
      obtain ⟨b, hb⟩ := List.mem_iff_getElem?.mp hx
      obtain ⟨h1, h2, h3⟩ := (hz b k o g).mp hb
      obtain ⟨hl, hgood⟩ := hitem b k o g h1 h2 h3
      have hkn := hmax k (List.mem_of_getElem? h1)
      obtain ⟨l, ha, hb', hc⟩ := item_chain sparse n o g hl (by
        rintro o' ho' t rfl
        obtain ⟨hnd, hlt⟩ := hgood t ho'
        exact ⟨hnd, fun e he => by have := hlt e he; omega⟩)
      refine ⟨l.take k, by simp only [ha, Option.map_some], by simp; omega, ?_⟩
      intro j hj
      obtain ⟨x, hx1, hx2⟩ := hc j (by omega)
      exact ⟨x, by rw [List.getElem?_take, if_pos hj]; exact hx1, hx2⟩
    obtain ⟨ys, h1, h2, h3⟩ := mapM_exists _ _ _ key
    refine ⟨ys, ?_, by simp at h2; omega, ?_⟩
    · simp only [gradients, hn, h0, if_false]
      rw [if_neg]
      · exact h1
      · intro hc
        simp only [Bool.and_eq_true, List.all_eq_true] at hc
        obtain ⟨hsp, hall⟩ := hc
        obtain ⟨o, hom, t, ht, hd⟩ := hs hsp
        have := hall o hom _ ht
        simp only [noDeriv, List.isEmpty_iff] at this
        exact hd this
    · intro b k o g hk ho' hg'
      obtain ⟨y, hy, hq⟩ := h3 b _ ((hz b k o g).mpr ⟨hk, ho', hg'⟩)
      exact ⟨y, hy, hq⟩

end Scallop.ForwardOut
