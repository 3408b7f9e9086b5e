import Verif.Proof.Exclusion
import Verif.Proof.InputTags
import Verif.Props.InputTags

/-!
# C98: exactly the alternatives of one choice exclude each other

Choices are written in a program (`rel {0.5::a(1); 0.5::a(2)}`), made by rules (`n in {1; 2}` for every solution of a body), or given to a database.
-/

namespace Scallop.Input

variable {K V : Type*} [Field K] [LinearOrder K] [IsStrictOrderedRing K]

/-! ## Choices written in a program -/

omit [IsStrictOrderedRing K] in
/-- C98: for plain facts and choices written in a program, the product of the tags of two facts is empty (they never hold together) if and only if they are
alternatives of one choice. -/
theorem c98_program (k : Kind) (hk : k = .exclusiveProb ∨ k = .exclusiveDiffProb) (plain : List (DynTag K × Tup V)) (ds : List (List (DynTag K × Tup V)))
    (hp : ∀ f ∈ plain, f.1 = .none ∨ ∃ p, f.1 = .float p) (hd : ∀ d ∈ ds, ∀ f ∈ d, f.1 = .none ∨ ∃ p, f.1 = .float p)
    (s : Reg K) (es : List (Elem (Tup V) Dnf)) (h : internalize k Reg.new (plain ++ programExclusive ds) = some (s, es)) (n : Nat) (hn : 0 < n)
    (i j : Nat) (hij : i ≠ j) (a b : Elem (Tup V) Dnf) (ha : es[i]? = some a) (hb : es[j]? = some b) :
    (DnfCtx.mk s.prob s.disj).topKMult n a.tag b.tag = [] ↔ ∃ c, (choices plain ds)[i]? = some (some c) ∧ (choices plain ds)[j]? = some (some c) := by
  have hsay : ∀ f ∈ plain ++ programExclusive ds, taken (ofDyn k f.1) = f.1.says := by
    intro f hf
    rcases List.mem_append.mp hf with hf | hf
    · rcases hp f hf with h1 | ⟨p, h1⟩ <;> rcases hk with rfl | rfl <;> simp [h1, ofDyn, taken, DynTag.says, InTag.says]
    · rcases programExclusive_says ds hd f hf with ⟨e, h1⟩ | ⟨p, e, h1⟩ <;> rcases hk with rfl | rfl <;> simp [h1, ofDyn, taken, DynTag.says, InTag.says]
  have hlen : es.length = (plain ++ programExclusive ds).length := by
    obtain ⟨s1, es1, h1, h2, _⟩ := internalize_get hk (plain ++ programExclusive ds)
    rw [h] at h1
    obtain ⟨rfl, rfl⟩ := Prod.mk.inj (Option.some.inj h1)
    simpa using congrArg List.length h2
  have hgroups : (plain ++ programExclusive ds).map (fun f => f.1.says.2) = choices plain ds := by
    rw [List.map_append, programExclusive_groups ds hd]
    unfold choices
    congr 1
    refine List.eq_replicate_iff.mpr ⟨by simp, fun b hb => ?_⟩
    obtain ⟨f, hf, rfl⟩ := List.mem_map.mp hb
    rcases hp f hf with h1 | ⟨p, h1⟩ <;> simp [h1, DynTag.says]
  have hi : i < (plain ++ programExclusive ds).length := hlen ▸ (List.getElem?_eq_some_iff.mp ha).1
  have hj : j < (plain ++ programExclusive ds).length := hlen ▸ (List.getElem?_eq_some_iff.mp hb).1
  rw [internalize_apart hk _ hsay h hn hij (List.getElem?_eq_getElem hi) (List.getElem?_eq_getElem hj) ha hb]
  rw [← hgroups, List.getElem?_map, List.getElem?_map, List.getElem?_eq_getElem hi, List.getElem?_eq_getElem hj]
  simp

/-- C98 refuted for alternatives tagged with a Boolean: `rel {true::a(1); true::a(2)}` says nothing of a choice. -/
theorem c98_bool_refuted (u v : Tup V) : ∃ s es, internalize .exclusiveDiffProb Reg.new (programExclusive [[((.bool true : DynTag K), u), (.bool true, v)]]) = some (s, es) ∧
    ∃ a b, es[0]? = some a ∧ es[1]? = some b ∧ (DnfCtx.mk s.prob s.disj).topKMult 1 a.tag b.tag ≠ [] := by
  obtain ⟨s, es, h, _⟩ := c97_internalize (K := K) .exclusiveDiffProb (Or.inr rfl) (programExclusive [[(.bool true, u), (.bool true, v)]])
  have hes := h
  simp only [programExclusive, List.zipIdx_cons, List.zipIdx_nil, List.map_cons, List.map_nil, List.flatten_cons, List.flatten_nil, List.append_nil,
    DynTag.withExclusivity, internalize, ofDyn, ofBool, Option.bind_some, InTag.entry, Reg.register, Reg.new, Option.map_some, Option.some.injEq, Prod.mk.injEq] at hes
  refine ⟨s, es, h, _, _, by rw [← hes.2]; rfl, by rw [← hes.2]; rfl, ?_⟩
  intro hm
  have := (internalize_apart (Or.inr rfl) _ (fun f _ => c97_full f.1) h (n := 1) (by omega) (i := 0) (j := 1) (by omega) rfl rfl
    (by rw [← hes.2]; rfl) (by rw [← hes.2]; rfl)).mp hm
  simp [DynTag.withExclusivity, DynTag.says] at this

/-! ## Choices made by rules -/

section
variable {V : Type*} [DecidableEq (Tup V)]

/-- C98: every solution gets every alternative, once for each time it is found, in order. -/
theorem c98_alternatives (alts : List (Tup V)) (n : Nat) (its : List (List (Tup V))) :
    (exclusionRun alts n its).1.map (List.map (fun r => (r.1, r.2.1))) = its.map (fun ts => ts.flatMap (fun t => alts.map (fun a => (t, a)))) :=
  exclusionRun_pairs alts its n

/-- C98: the numbers of a choice made by a rule: in all evaluations of a rule, two alternatives get the same number if and only if they belong to the same
solution and the same evaluation. -/
theorem c98_numbers (alts : List (Tup V)) (n : Nat) (its : List (List (Tup V))) (i j : Nat) (rs rs' : List (Tup V × Tup V × Nat)) (r r' : Tup V × Tup V × Nat)
    (h : (exclusionRun alts n its).1[i]? = some rs) (h' : (exclusionRun alts n its).1[j]? = some rs') (hr : r ∈ rs) (hr' : r' ∈ rs') :
    r.2.2 = r'.2.2 ↔ i = j ∧ r.1 = r'.1 := exclusionRun_ids alts its n i j rs rs' r r' h h' hr hr'

/-- C98 (partial): if no solution is found in two evaluations, two alternatives get the same number if and only if they belong to the same solution. -/
theorem c98_choice_partial (alts : List (Tup V)) (n : Nat) (its : List (List (Tup V)))
    (hits : ∀ (i j : Nat) ts ts' t, its[i]? = some ts → its[j]? = some ts' → t ∈ ts → t ∈ ts' → i = j)
    (r r' : Tup V × Tup V × Nat) (hr : r ∈ (exclusionRun alts n its).1.flatten) (hr' : r' ∈ (exclusionRun alts n its).1.flatten) :
    r.2.2 = r'.2.2 ↔ r.1 = r'.1 := by
  obtain ⟨rs, hrs, hr⟩ := List.mem_flatten.mp hr
  obtain ⟨rs', hrs', hr'⟩ := List.mem_flatten.mp hr'
  obtain ⟨i, hi⟩ := List.mem_iff_getElem?.mp hrs
  obtain ⟨j, hj⟩ := List.mem_iff_getElem?.mp hrs'
  rw [exclusionRun_ids alts its n i j rs rs' r r' hi hj hr hr']
  refine ⟨And.right, fun h => ⟨?_, h⟩⟩
  have hmem : ∀ (i : Nat) (rs : List (Tup V × Tup V × Nat)) (r : Tup V × Tup V × Nat), (exclusionRun alts n its).1[i]? = some rs → r ∈ rs →
      ∃ ts, its[i]? = some ts ∧ r.1 ∈ ts := by
    intro i rs r hi hr
    have hp := congrArg (fun l => l[i]?) (exclusionRun_pairs alts its n)
    simp only [List.getElem?_map, hi, Option.map_some] at hp
    cases hts : its[i]? with
    | none => rw [hts] at hp; simp at hp
    | some ts =>
      rw [hts] at hp
      simp only [Option.map_some, Option.some.injEq] at hp
      have hm : (r.1, r.2.1) ∈ rs.map (fun r => (r.1, r.2.1)) := List.mem_map.mpr ⟨r, hr, rfl⟩
      rw [hp] at hm
      simp only [List.mem_flatMap, List.mem_map, Prod.mk.injEq] at hm
      obtain ⟨t, ht, a, _, h1, _⟩ := hm
      exact ⟨ts, rfl, h1 ▸ ht⟩
  obtain ⟨ts, hts, h1⟩ := hmem i rs r hi hr
  obtain ⟨ts', hts', h2⟩ := hmem j rs' r' hj hr'
  exact hits i j ts ts' r.1 hts hts' h1 (h ▸ h2)

omit [IsStrictOrderedRing K] in
/-- C98 refuted: a solution found in two evaluations (iterations) gets two numbers; its alternative `a` of the first and its alternative `b` of the second are
registered in different exclusions and hold together. -/
theorem c98_revisit_refuted (t a b : Tup V) (n : Nat) :
    ∃ i j : Nat, (exclusionRun [a, b] n [[t], [t]]).1 = [[(t, a, i), (t, b, i)], [(t, a, j), (t, b, j)]] ∧
    ∃ s es x y, internalize .exclusiveProb Reg.new [((altTag i : DynTag K), a), (altTag i, b), (altTag j, a), (altTag j, b)] = some (s, es) ∧
      es[0]? = some x ∧ es[3]? = some y ∧ x.tuple = a ∧ y.tuple = b ∧ (DnfCtx.mk s.prob s.disj).topKMult 1 x.tag y.tag ≠ [] := by
  refine ⟨n, n + 1, by simp [exclusionRun, exclusionBatch, exclusionOf], ?_⟩
  obtain ⟨s, es, h, h2⟩ := c97_internalize (K := K) .exclusiveProb (Or.inl rfl) [(altTag n, a), (altTag n, b), (altTag (n + 1), a), (altTag (n + 1), b)]
  have hl : es.length = 4 := by simpa using congrArg List.length h2
  match es, hl, h, h2 with
  | [e0, e1, e2, e3], _, h, h2 =>
    simp only [List.map_cons, List.map_nil, List.cons.injEq, and_true] at h2
    refine ⟨s, _, e0, e3, h, rfl, rfl, h2.1, h2.2.2.2, fun hm => ?_⟩
    have := (internalize_apart (Or.inl rfl) _ (fun f hf => by
      simp only [List.mem_cons, List.not_mem_nil, or_false] at hf
      rcases hf with rfl | rfl | rfl | rfl <;> rfl) h (n := 1) (by omega) (i := 0) (j := 3) (by omega) rfl rfl rfl rfl).mp hm
    simp [altTag, DynTag.says] at this

/-! ## Choices of different origin -/

omit [IsStrictOrderedRing K] in
/-- C98 refuted: the first choice written in a program and the first choice made by a rule have the same number. An alternative `u` of the first and an alternative
`a` of the second exclude each other, although they are unrelated: the probability of both is 0, not the probability of `u`. -/
theorem c98_origins_refuted (p q : K) (u v t a : Tup V) :
    ∃ id, (exclusionRun [a] 0 [[t]]).1 = [[(t, a, id)]] ∧
    ∃ s es x y, internalize .exclusiveProb Reg.new (programExclusive [[(.float p, u), (.float q, v)]] ++ [(altTag id, a)]) = some (s, es) ∧
      es[0]? = some x ∧ es[2]? = some y ∧ x.tuple = u ∧ y.tuple = a ∧ ∀ k, (DnfCtx.mk s.prob s.disj).topKMult k x.tag y.tag = [] := by
  refine ⟨0, by simp [exclusionRun, exclusionBatch, exclusionOf], ?_⟩
  obtain ⟨s, es, h, h2⟩ := c97_internalize (K := K) .exclusiveProb (Or.inl rfl) (programExclusive [[(.float p, u), (.float q, v)]] ++ [(altTag 0, a)])
  match es, h2 with
  | [e0, e1, e2], h2 =>
    simp only [programExclusive, List.zipIdx_cons, List.zipIdx_nil, List.map_cons, List.map_nil, List.flatten_cons, List.flatten_nil, List.append_nil,
      List.cons_append, List.nil_append, List.cons.injEq, and_true] at h2
    refine ⟨s, _, e0, e2, h, rfl, rfl, h2.1, h2.2.2, fun k => ?_⟩
    cases k with
    | zero => simp [DnfCtx.topKMult, DnfCtx.retainTopK]
    | succ k =>
      refine (internalize_apart (Or.inl rfl) _ (fun f hf => by
        simp only [programExclusive, List.zipIdx_cons, List.zipIdx_nil, List.map_cons, List.map_nil, List.flatten_cons, List.flatten_nil, List.append_nil,
          List.cons_append, List.nil_append, List.mem_cons, List.not_mem_nil, or_false] at hf
        rcases hf with rfl | rfl | rfl <;> rfl) h (n := k + 1) (by omega) (i := 0) (j := 2) (by omega) rfl rfl rfl rfl).mpr ?_
      exact ⟨0, rfl, rfl⟩

end

omit [LinearOrder K] [IsStrictOrderedRing K] in
/-- C98: two facts given to a database as alternatives belong to one choice if and only if they were given by one call. -/
theorem c98_database (calls : List (List (K × Tup V))) (i j : Nat) (fs fs' : List (InTag K × Tup V)) (f f' : InTag K × Tup V)
    (h : (databaseExclusive 0 calls)[i]? = some fs) (h' : (databaseExclusive 0 calls)[j]? = some fs') (hf : f ∈ fs) (hf' : f' ∈ fs') :
    (∃ e, f.1.says.2 = some e ∧ f'.1.says.2 = some e) ↔ i = j := by
  have key : ∀ (i : Nat) (fs : List (InTag K × Tup V)) (f : InTag K × Tup V), (databaseExclusive 0 calls)[i]? = some fs → f ∈ fs → f.1.says.2 = some i := by
    intro i fs f h hf
    rw [databaseExclusive_spec, List.getElem?_map, List.getElem?_zipIdx] at h
    cases hc : calls[i]? with
    | none => rw [hc] at h; simp at h
    | some c =>
      rw [hc] at h
      simp only [Option.map_some, Nat.zero_add, Option.some.injEq] at h
      subst h
      obtain ⟨g, _, rfl⟩ := List.mem_map.mp hf
      rfl
  rw [key i fs f h hf, key j fs' f' h' hf']
  simp [eq_comm]

omit [LinearOrder K] [IsStrictOrderedRing K] in
/-- C98 refuted: an alternative of the first choice written in a program and one of the first choice given to the database say the same choice. -/
theorem c98_database_refuted (p q : K) (u v : Tup V) : ∃ d e, programExclusive [[((.float p : DynTag K), u)]] = [(d, u)] ∧
    databaseExclusive 0 [[(q, v)]] = [[(e, v)]] ∧ d.says.2 = some 0 ∧ e.says.2 = some 0 := ⟨_, _, rfl, rfl, rfl, rfl⟩

/-! ## Cases -/

/-- A plain fact and two choices. -/
def exampleChoices : List (List (DynTag ℚ × Tup Nat)) := [[(.float (1 / 2), .val 1), (.float (1 / 2), .val 2)], [(.float (1 / 4), .val 3), (.none, .val 4)]]

example : choices [((.none : DynTag ℚ), (Tup.val 0 : Tup Nat))] exampleChoices = [none, some 0, some 0, some 1, some 1] := by decide
example : ∃ s es, internalize .exclusiveProb Reg.new ([((.none : DynTag ℚ), (Tup.val 0 : Tup Nat))] ++ programExclusive exampleChoices) = some (s, es) ∧
    es.map Elem.tag = [[[]], [[.pos 0]], [[.pos 1]], [[.pos 2]], [[.pos 3]]] ∧ s.disj.disjunctions = [[0, 1], [2, 3]] :=
  ⟨_, _, rfl, by decide +kernel, by decide +kernel⟩
example : (exclusionRun [Tup.val 7, .val 8] 0 [[Tup.val 1, .val 2, .val 1], [.val 3]]).1 =
    [[(.val 1, .val 7, 0), (.val 1, .val 8, 0), (.val 2, .val 7, 1), (.val 2, .val 8, 1), (.val 1, .val 7, 0), (.val 1, .val 8, 0)],
     [(.val 3, .val 7, 2), (.val 3, .val 8, 2)]] := by decide +kernel

end Scallop.Input
