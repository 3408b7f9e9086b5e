import Verif.Proof.LoadingOrder

/-!
# C94: compiling is all or nothing, and each imported file is loaded once, before the files that import it
-/

namespace Scallop.Compile

variable {I A R E : Type} {L : Lang I A R E} {fs : Files}

/-! ## A small language for the examples: `"main"` imports `l` and `r`, which both import `b`; `"user"` imports `b`; `"loop"` imports itself -/

section Examples

private def toy : Lang (String ⊕ Nat) (List Nat) Unit String where
  parse t := match t with
    | "main" => .ok [.inl "l", .inl "r", .inr 1]
    | "l" => .ok [.inl "b", .inr 2]
    | "r" => .ok [.inl "b", .inr 3]
    | "b" => .ok [.inr 4]
    | "loop" => .ok [.inl "loop"]
    | "user" => .ok [.inl "b", .inr 5]
    | "two" => .ok [.inl "l", .inl "c", .inr 6]
    | "c" => .ok [.inr 7]
    | "wrong" => .ok [.inl "b", .inr 0]
    | _ => .error "syntax"
  importOf i := match i with | .inl f => some f | .inr _ => none
  annotate n _ is := (is, n + is.length)
  attrs a r is := .ok ((a, r), is)
  pre a _ := (a, [])
  transform a is := (a, is)
  main a r is := (a ++ is.filterMap (fun i => i.getRight?), r, if is.contains (.inr 0) then ["zero"] else [])
  isError _ := true
  cycle p := "cycle " ++ p
  notFound p := "no file " ++ p

private def disk : Files where
  read p := if p ∈ ["l", "r", "b", "c", "loop"] then some p else none
  canon p := "/" ++ p
  resolve _ f := f

private def v0 : View (String ⊕ Nat) (List Nat) Unit := ⟨[], [], [], (), 0, []⟩
private def h0 : Heap (List Nat) := ⟨[[]], fun i => if i = 0 then 1 else 0⟩
private def c0 : Ctx (String ⊕ Nat) Unit := ⟨[], [], [], (), 0, 0⟩

end Examples

/-! ## All or nothing -/

/-- A compilation that fails leaves the context as it was: the same sources, imported files, items, predicates, identifiers and analysis, and
the same owners of every analysis. -/
theorem c94_atomic {fuel : Nat} {h h' : Heap A} {self self' : Ctx I R} {src : Src} {es : List E} (hs : self.Valid h)
    (hc : compile L fs fuel h self src = some (h', self', .err es)) :
    self' = self ∧ self'.view h' = self.view h ∧ self'.Valid h' ∧ ∀ i < h.cells.length, h'.refs i = h.refs i := by
  obtain ⟨v, hv⟩ := view_some hs.1
  obtain ⟨-, h2, rfl⟩ := compile_spec hs.1 hv hc
  exact ⟨rfl, view_mono h2.pre hs.1, ⟨Nat.lt_of_lt_of_le hs.1 h2.pre.length_le, by rw [h2.refs _ hs.1]; exact hs.2⟩, h2.refs⟩

/-- Compiling never panics. -/
theorem c94_no_panic {fuel : Nat} {h h' : Heap A} {self self' : Ctx I R} {src : Src} (hs : self.Valid h) :
    compile L fs fuel h self src ≠ some (h', self', .panic) := by
  intro hc
  obtain ⟨v, hv⟩ := view_some hs.1
  exact compile_spec hs.1 hv hc

/-- A compilation that succeeds adds: the source is the last one, the earlier sources and items stay in front, and the number returned is
the position of the source. -/
theorem c94_adds {fuel : Nat} {h h' : Heap A} {self self' : Ctx I R} {src : Src} {n : Nat} (hs : self.Valid h)
    (hc : compile L fs fuel h self src = some (h', self', .ok n)) :
    self'.Valid h' ∧ self.items <+: self'.items ∧ ∃ o, self'.sources = self.sources ++ o ++ [src] ∧ n = (self.sources ++ o).length := by
  obtain ⟨v, hv⟩ := view_some hs.1
  obtain ⟨order, v', hl, hm, hv', hn⟩ := compile_spec hs.1 hv hc
  have hf := loads_facts hl
  obtain ⟨o, rfl, -⟩ := hf.ex
  have e1 : v.sources = self.sources ∧ v.items = self.items := by
    simp only [Ctx.view, Option.map_eq_some_iff] at hv
    obtain ⟨a, -, rfl⟩ := hv
    exact ⟨rfl, rfl⟩
  have e2 : v'.sources = self'.sources ∧ v'.items = self'.items := by
    simp only [Ctx.view, Option.map_eq_some_iff] at hv'
    obtain ⟨a, -, rfl⟩ := hv'
    exact ⟨rfl, rfl⟩
  have hsrc : self'.sources = self.sources ++ o ++ [src] := by rw [← e1.1, ← e2.1, List.append_assoc]; exact hf.sources
  refine ⟨⟨hm.lt, by rw [hm.one]; exact Nat.le_refl _⟩, ?_, o, hsrc, ?_⟩
  · rw [← e1.2, ← e2.2]; exact hf.items
  · rw [e2.1, hsrc, List.length_append] at hn; simpa using hn.symm

/-- Contexts that own their analyses in a heap: every cell has at least as many owners as there are contexts on it. -/
def Owned (h : Heap A) (cs : List (Ctx I R)) : Prop :=
  (∀ c ∈ cs, c.analysis < h.cells.length) ∧ ∀ i < h.cells.length, (cs.map Ctx.analysis).count i ≤ h.refs i

/-- A clone of a context shares its analysis. -/
theorem c94_clone {h : Heap A} {c : Ctx I R} {cs : List (Ctx I R)} (ho : Owned h (c :: cs)) : Owned (h.clone c.analysis) (c :: c :: cs) := by
  refine ⟨fun d hd => ho.1 d (by simpa using hd), fun i hi => ?_⟩
  have := ho.2 i hi
  simp only [Heap.clone, List.map_cons, List.count_cons, beq_iff_eq] at this ⊢
  by_cases e : c.analysis = i
  · subst e; simpa using this
  · rw [if_neg e] at this ⊢; rw [if_neg fun h => e h.symm]; exact this

/-- Compiling in one context changes no other context, also not a clone that shares its analysis. -/
theorem c94_clones {fuel : Nat} {h h' : Heap A} {self self' : Ctx I R} {cs : List (Ctx I R)} {src : Src} {out : Out E}
    (ho : Owned h (self :: cs)) (hc : compile L fs fuel h self src = some (h', self', out)) :
    Owned h' (self' :: cs) ∧ ∀ c ∈ cs, c.view h' = c.view h := by
  have hs : self.analysis < h.cells.length := ho.1 self (by simp)
  obtain ⟨v, hv⟩ := view_some hs
  have href := compile_spec hs hv hc
  cases out with
  | panic => exact absurd href (by simp [Refines])
  | err es =>
    obtain ⟨-, h2, rfl⟩ := href
    refine ⟨⟨fun c hc => Nat.lt_of_lt_of_le (ho.1 c hc) h2.pre.length_le, fun i hi => ?_⟩, fun c hc => view_mono h2.pre (ho.1 c (by simp [hc]))⟩
    by_cases hi' : i < h.cells.length
    · rw [h2.refs i hi']; exact ho.2 i hi'
    · rw [List.count_eq_zero_of_not_mem]
      · exact Nat.zero_le _
      · intro hm
        obtain ⟨c, hc, rfl⟩ := List.mem_map.1 hm
        exact hi' (ho.1 c hc)
  | ok n =>
    obtain ⟨o, v', -, hm, -, -⟩ := href
    refine ⟨⟨fun c hc => ?_, fun i hi => ?_⟩, fun c hc => view_mono hm.pre (ho.1 c (by simp [hc]))⟩
    · rcases List.mem_cons.1 hc with rfl | hc
      · exact hm.lt
      · exact Nat.lt_of_lt_of_le (ho.1 c (by simp [hc])) hm.pre.length_le
    · by_cases hi' : i < h.cells.length
      · have h1 := ho.2 i hi'
        have hn := hm.new
        rw [hm.refs i hi']
        simp only [List.map_cons, List.count_cons, beq_iff_eq] at h1 ⊢
        rw [if_neg (by omega : ¬ self'.analysis = i)]
        by_cases e : self.analysis = i
        · rw [if_pos e] at h1; rw [if_pos e.symm]; omega
        · rw [if_neg e] at h1; rw [if_neg fun h => e h.symm]; omega
      · have : (cs.map Ctx.analysis).count i = 0 := by
          refine List.count_eq_zero_of_not_mem fun hmem => ?_
          obtain ⟨c, hc, rfl⟩ := List.mem_map.1 hmem
          exact hi' (ho.1 c (by simp [hc]))
        simp only [List.map_cons, List.count_cons, this, beq_iff_eq]
        split
        · next e => subst e; rw [hm.one]; exact Nat.le_refl _
        · exact Nat.zero_le _

-- a source with an error after its import has been loaded: nothing is left of the import
example : c0.Valid h0 ∧ ((compile toy disk 9 h0 c0 ⟨none, "wrong"⟩).map fun r => (match r.2.2 with | .err es => es | _ => [], r.2.1.sources,
    r.2.1.imported)) = some (["zero"], [], []) := by
  refine ⟨⟨by decide, by decide⟩, by decide +kernel⟩

example : ((compile toy disk 9 h0 c0 ⟨none, "user"⟩).map fun r => (match r.2.2 with | .ok n => some n | _ => none, r.2.1.sources,
    r.1.cells[r.2.1.analysis]?, r.1.cells[0]?)) = some (some 1, [⟨some "b", "b"⟩, ⟨none, "user"⟩], some [4, 5], some []) := by decide +kernel

example : Owned h0 [c0] := ⟨by decide, by decide⟩

/-! ## Loading -/

/-- Compiling ends if there are finitely many files, and it loads the source if it can be loaded: it succeeds with the content that
`Loads` gives, or fails and there is none. -/
theorem c94_decides {N : List String} (hN : ∀ p, (fs.read p).isSome → fs.canon p ∈ N) {h : Heap A} {self : Ctx I R} {src : Src}
    {v : View I A R} (hs : self.Valid h) (hv : self.view h = some v) {fuel : Nat} (hf : 1 + N.length ≤ fuel) :
    (∃ h' self' n order v', compile L fs fuel h self src = some (h', self', .ok n) ∧ Loads L fs v src order v' ∧ self'.view h' = some v') ∨
    (∃ h' es, compile L fs fuel h self src = some (h', self, .err es) ∧ ∀ order v', ¬ Loads L fs v src order v') := by
  have := compile_total (L := L) hN (fuel := fuel) (src := src) hs.1 (Nat.le_trans (Nat.add_le_add_left List.countP_le_length 1) hf)
  cases hc : compile L fs fuel h self src with
  | none => exact absurd hc this
  | some r =>
    have href := compile_spec hs.1 hv hc
    obtain ⟨h', self', out⟩ := r
    cases out with
    | ok n => obtain ⟨o, v', h1, -, h2, -⟩ := href; exact Or.inl ⟨h', self', n, o, v', rfl, h1, h2⟩
    | err es => obtain ⟨h1, -, rfl⟩ := href; exact Or.inr ⟨h', es, rfl, h1⟩
    | panic => exact absurd href (by simp [Refines])

/-- The result of compiling depends on the content only, and there is only one. -/
theorem c94_deterministic {v v1 v2 : View I A R} {src : Src} {o1 o2 : List Src} (h1 : Loads L fs v src o1 v1) (h2 : Loads L fs v src o2 v2) :
    o1 = o2 ∧ v1 = v2 := loads_det.1 h1 h2

/-- The sources loaded are added in their order, which ends with the source itself; but for the set of imported files the result is that
of compiling them one after the other; and the set grows by their files. -/
theorem c94_order {v v' : View I A R} {src : Src} {order : List Src} (h : Loads L fs v src order v') :
    (∃ o, order = o ++ [src]) ∧ v'.sources = v.sources ++ order ∧ Steps L v.forget order v'.forget ∧
    ∀ p, p ∈ v'.imported ↔ p ∈ v.imported ∨ ∃ s ∈ order, fileOf fs s = some p := by
  have hf := loads_facts h
  refine ⟨?_, hf.sources, hf.steps, fun p => ?_⟩
  · obtain ⟨o, h1, -⟩ := hf.ex; exact ⟨o, h1⟩
  · rw [hf.imported]; simp [files]

/-- A file that a source imports is loaded before the source. -/
theorem c94_imports_first {v v' : View I A R} {src : Src} {order : List Src} (h : Loads L fs v src order v') {i : Nat} {s : Src}
    (hi : order[i]? = some s) {f : String} (hf : f ∈ importsOf L s) :
    ∃ t, Imports L fs s t ∧ t.path = some (fs.resolve s.path f) ∧ ∃ j < i, order[j]? = some t := by
  obtain ⟨j, hj, text, h1, h2⟩ := (loads_facts h).before i s hi f hf
  exact ⟨_, ⟨f, hf, text, h1, rfl⟩, rfl, j, hj, h2⟩

/-- No file is loaded twice, none that the source itself is, and none that had been imported before. -/
theorem c94_once {v v' : View I A R} {src : Src} {o : List Src} (h : Loads L fs v src (o ++ [src]) v') :
    (o.filterMap (fileOf fs)).Nodup ∧ ∀ s ∈ o, ∀ p, fileOf fs s = some p → p ∉ v.imported ∧ fileOf fs src ≠ some p := by
  obtain ⟨o', h1, h2, h3, -⟩ := (loads_facts h).ex
  obtain rfl : o = o' := (List.append_inj' h1 rfl).1
  exact ⟨h2, fun s hs p hp => h3 p (List.mem_filterMap.2 ⟨s, hs, hp⟩)⟩

/-- Every file but the source is imported exactly once among the sources loaded: only trees of imports can be loaded. -/
theorem c94_tree {v v' : View I A R} {src : Src} {o : List Src} (h : Loads L fs v src (o ++ [src]) v') :
    ((o ++ [src]).flatMap (targets L fs)).Perm (o.filterMap (fileOf fs)) ∧ ((o ++ [src]).flatMap (targets L fs)).Nodup := by
  obtain ⟨o', h1, h2, -, h4⟩ := (loads_facts h).ex
  obtain rfl : o = o' := (List.append_inj' h1 rfl).1
  exact ⟨h4, h4.nodup_iff.2 h2⟩

theorem imports_reach {v v' : View I A R} {src : Src} {order : List Src} (h : Loads L fs v src order v') {s t : Src} {i : Nat}
    (hi : order[i]? = some s) (hr : Relation.TransGen (Imports L fs) s t) : ∃ j < i, order[j]? = some t := by
  induction hr with
  | single hr =>
    obtain ⟨f, hf, text, h1, rfl⟩ := hr
    obtain ⟨j, hj, text', h2, h3⟩ := (loads_facts h).before i _ hi f hf
    rw [h1] at h2
    obtain rfl := Option.some.inj h2
    exact ⟨j, hj, h3⟩
  | tail _ hr ih =>
    obtain ⟨k, hk, hk'⟩ := ih
    obtain ⟨f, hf, text, h1, rfl⟩ := hr
    obtain ⟨j, hj, text', h2, h3⟩ := (loads_facts h).before k _ hk' f hf
    rw [h1] at h2
    obtain rfl := Option.some.inj h2
    exact ⟨j, by omega, h3⟩

/-- Cycles are refused: a source from which a file can be reached that is reached again from itself is not loaded. -/
theorem c94_cycle {v : View I A R} {src s t : Src} {p : String} (h1 : Relation.ReflTransGen (Imports L fs) src s)
    (h2 : Relation.TransGen (Imports L fs) s t) (hs : fileOf fs s = some p) (ht : fileOf fs t = some p) :
    ¬ ∃ order v', Loads L fs v src order v' := by
  rintro ⟨order, v', h⟩
  obtain ⟨o, rfl, e1, e2, -⟩ := (loads_facts h).ex
  have hlast : (o ++ [src])[o.length]? = some src := by simp
  have hti : ∃ j < o.length, o[j]? = some t := by
    obtain ⟨j, hj, hj'⟩ := imports_reach h hlast (Relation.TransGen.trans_right h1 h2)
    exact ⟨j, hj, by rwa [List.getElem?_append_left hj] at hj'⟩
  rcases Relation.reflTransGen_iff_eq_or_transGen.1 h1 with rfl | h1'
  · obtain ⟨j, hj, hj'⟩ := hti
    exact (e2 p (List.mem_filterMap.2 ⟨t, List.mem_of_getElem? hj', ht⟩)).2 hs
  · obtain ⟨i, hi, hi'⟩ := imports_reach h hlast h1'
    obtain ⟨j, hj, hj'⟩ := imports_reach h hi' h2
    rw [List.getElem?_append_left hi] at hi'
    rw [List.getElem?_append_left (by omega)] at hj'
    obtain ⟨hi2, hi3⟩ := List.getElem?_eq_some_iff.1 hi'
    -- the file occurs at two places
    have hsplit : o = o.take i ++ s :: o.drop (i + 1) := by
      rw [← hi3, ← List.drop_eq_getElem_cons hi2, List.take_append_drop]
    have hmem : t ∈ o.take i := by
      refine List.mem_of_getElem? (i := j) ?_
      rw [List.getElem?_take, if_pos hj]; exact hj'
    rw [hsplit, files, List.filterMap_append, List.filterMap_cons, hs, List.nodup_append] at e1
    exact e1.2.2 p (List.mem_filterMap.2 ⟨t, hmem, ht⟩) p (by simp) rfl

-- "two" imports `l` and `c`, and `l` imports `b`
private theorem two_loads : ∃ v', Loads toy disk v0 ⟨none, "two"⟩ [⟨some "b", "b"⟩, ⟨some "l", "l"⟩, ⟨some "c", "c"⟩, ⟨none, "two"⟩] v' := by
  refine ⟨⟨[⟨some "b", "b"⟩, ⟨some "l", "l"⟩, ⟨some "c", "c"⟩, ⟨none, "two"⟩], ["/c", "/b", "/l"],
    [.inr 4, .inl "b", .inr 2, .inr 7, .inl "l", .inl "c", .inr 6], (), 14, [4, 2, 7, 6]⟩, ?_⟩
  have hb : Loads toy disk ⟨[], ["/l"], [], (), 0, []⟩ ⟨some "b", "b"⟩ [⟨some "b", "b"⟩]
      ⟨[⟨some "b", "b"⟩], ["/b", "/l"], [.inr 4], (), 2, [4]⟩ := Loads.mk (order := []) (ast := [.inr 4]) rfl .nil rfl
  have hl : Loads toy disk v0 ⟨some "l", "l"⟩ [⟨some "b", "b"⟩, ⟨some "l", "l"⟩]
      ⟨[⟨some "b", "b"⟩, ⟨some "l", "l"⟩], ["/b", "/l"], [.inr 4, .inl "b", .inr 2], (), 6, [4, 2]⟩ :=
    Loads.mk (order := [⟨some "b", "b"⟩]) (ast := ([.inl "b", .inr 2] : List (String ⊕ Nat))) rfl
      (LoadsAll.cons (src := ⟨some "l", "l"⟩) (text := "b") (o1 := [⟨some "b", "b"⟩]) (o2 := []) rfl (by decide) hb .nil) rfl
  have hc : Loads toy disk ⟨[⟨some "b", "b"⟩, ⟨some "l", "l"⟩], ["/b", "/l"], [.inr 4, .inl "b", .inr 2], (), 6, [4, 2]⟩ ⟨some "c", "c"⟩
      [⟨some "c", "c"⟩] ⟨[⟨some "b", "b"⟩, ⟨some "l", "l"⟩, ⟨some "c", "c"⟩], ["/c", "/b", "/l"], [.inr 4, .inl "b", .inr 2, .inr 7], (), 8,
        [4, 2, 7]⟩ := Loads.mk (order := []) (ast := [.inr 7]) rfl .nil rfl
  exact Loads.mk (order := [⟨some "b", "b"⟩, ⟨some "l", "l"⟩, ⟨some "c", "c"⟩]) (ast := ([.inl "l", .inl "c", .inr 6] : List (String ⊕ Nat))) rfl
    (LoadsAll.cons (text := "l") (o1 := [⟨some "b", "b"⟩, ⟨some "l", "l"⟩]) (o2 := [⟨some "c", "c"⟩]) rfl (by decide) hl
      (LoadsAll.cons (text := "c") (o1 := [⟨some "c", "c"⟩]) (o2 := []) rfl (by decide) hc .nil)) rfl

example : ∀ p, (disk.read p).isSome → disk.canon p ∈ ["/l", "/r", "/b", "/c", "/loop"] := by
  intro p hp
  simp only [disk] at hp ⊢
  split at hp
  · next h => simp only [List.mem_cons, List.not_mem_nil, or_false] at h; rcases h with rfl | rfl | rfl | rfl | rfl <;> decide +kernel
  · simp at hp

-- a file that imports itself
example : ¬ ∃ order v', Loads toy disk v0 ⟨some "loop", "loop"⟩ order v' :=
  c94_cycle (s := ⟨some "loop", "loop"⟩) (t := ⟨some "loop", "loop"⟩) (p := "/loop") .refl (.single ⟨"loop", by decide, "loop", rfl, rfl⟩) rfl rfl

/-- Refuted: a file imported by two files is not a cycle but is refused as one. All files exist and can be parsed, every step succeeds, no
file is reached from itself, and the source cannot be loaded. -/
theorem c94_diamond_false : ∃ (I A : Type) (L : Lang I A Unit String) (fs : Files) (v : View I A Unit) (src : Src),
    (∀ s, Relation.ReflTransGen (Imports L fs) src s →
      (∃ ast, L.parse s.text = .ok ast) ∧ (∀ f ∈ importsOf L s, (fs.read (fs.resolve s.path f)).isSome) ∧
      ∀ t, Relation.TransGen (Imports L fs) s t → fileOf fs s ≠ fileOf fs t) ∧
    (∀ v s ast, L.parse s.text = .ok ast → ∃ v', View.step L v s ast = .ok v') ∧
    ¬ ∃ order v', Loads L fs v src order v' := by
  have himp : ∀ s t, s ∈ [(⟨none, "main"⟩ : Src), ⟨some "l", "l"⟩, ⟨some "r", "r"⟩, ⟨some "b", "b"⟩] → Imports toy disk s t →
      t ∈ [(⟨none, "main"⟩ : Src), ⟨some "l", "l"⟩, ⟨some "r", "r"⟩, ⟨some "b", "b"⟩] ∧
        (t.text.length, t.text) ≠ (0, "") ∧
        (match t.text with | "main" => 2 | "b" => 0 | _ => 1) < (match s.text with | "main" => 2 | "b" => 0 | _ => 1) := by
    rintro s t hs ⟨f, hf, text, h1, rfl⟩
    simp only [List.mem_cons, List.not_mem_nil, or_false] at hs
    rcases hs with rfl | rfl | rfl | rfl
    · have : f = "l" ∨ f = "r" := by simpa [importsOf, toy] using hf
      rcases this with rfl | rfl
      · obtain rfl : "l" = text := Option.some.inj h1
        exact ⟨by decide, by decide, by decide⟩
      · obtain rfl : "r" = text := Option.some.inj h1
        exact ⟨by decide, by decide, by decide⟩
    · obtain rfl : f = "b" := by simpa [importsOf, toy] using hf
      obtain rfl : "b" = text := Option.some.inj h1
      exact ⟨by decide, by decide, by decide⟩
    · obtain rfl : f = "b" := by simpa [importsOf, toy] using hf
      obtain rfl : "b" = text := Option.some.inj h1
      exact ⟨by decide, by decide, by decide⟩
    · simp [importsOf, toy] at hf
  have hreach : ∀ s, Relation.ReflTransGen (Imports toy disk) ⟨none, "main"⟩ s →
      s ∈ [(⟨none, "main"⟩ : Src), ⟨some "l", "l"⟩, ⟨some "r", "r"⟩, ⟨some "b", "b"⟩] := by
    intro s hs
    induction hs with
    | refl => simp
    | tail _ h ih => exact (himp _ _ ih h).1
  have htrans : ∀ s t, s ∈ [(⟨none, "main"⟩ : Src), ⟨some "l", "l"⟩, ⟨some "r", "r"⟩, ⟨some "b", "b"⟩] →
      Relation.TransGen (Imports toy disk) s t →
      t ∈ [(⟨none, "main"⟩ : Src), ⟨some "l", "l"⟩, ⟨some "r", "r"⟩, ⟨some "b", "b"⟩] ∧
        (match t.text with | "main" => 2 | "b" => 0 | _ => 1) < (match s.text with | "main" => 2 | "b" => 0 | _ => 1) := by
    intro s t hs ht
    induction ht with
    | single h => exact ⟨(himp _ _ hs h).1, (himp _ _ hs h).2.2⟩
    | tail _ h ih => exact ⟨(himp _ _ ih.1 h).1, Nat.lt_trans (himp _ _ ih.1 h).2.2 ih.2⟩
  refine ⟨_, _, { toy with main := fun a r is => (a ++ is.filterMap (fun i => i.getRight?), r, []) }, disk, v0, ⟨none, "main"⟩, ?_, ?_, ?_⟩
  · intro s hs
    have hs := hreach s hs
    refine ⟨?_, ?_, fun t ht => ?_⟩
    · simp only [List.mem_cons, List.not_mem_nil, or_false] at hs
      rcases hs with rfl | rfl | rfl | rfl <;> exact ⟨_, rfl⟩
    · simp only [List.mem_cons, List.not_mem_nil, or_false] at hs
      rcases hs with rfl | rfl | rfl | rfl <;> decide +kernel
    · obtain ⟨h1, h2⟩ := htrans s t hs ht
      simp only [List.mem_cons, List.not_mem_nil, or_false] at hs h1
      rcases hs with rfl | rfl | rfl | rfl <;> rcases h1 with rfl | rfl | rfl | rfl <;> first | decide +kernel | (revert h2; decide)
  · intro v s ast _
    refine ⟨_, rfl⟩
  · have := compile_spec (L := { toy with main := fun a r is => (a ++ is.filterMap (fun i => i.getRight?), r, []) }) (fs := disk) (fuel := 9)
      (h := h0) (self := c0) (src := ⟨none, "main"⟩) (v := v0) (r := _) (by decide) rfl rfl
    rintro ⟨o, v', h⟩
    exact this.1 o v' h

/-- Refuted: a file that is compiled twice by a user is compiled twice, and its items are doubled. -/
theorem c94_twice_false : ∃ (I A : Type) (L : Lang I A Unit String) (fs : Files) (v v1 v2 : View I A Unit) (src : Src) (i : I),
    fileOf fs src ≠ none ∧ Loads L fs v src [src] v1 ∧ Loads L fs v1 src [src] v2 ∧ v1.items = [i] ∧ v2.items = [i, i] :=
  ⟨_, _, toy, disk, v0, _, _, ⟨some "b", "b"⟩, .inr 4, by decide, Loads.mk (order := []) (ast := [.inr 4]) rfl .nil rfl,
    Loads.mk (order := []) (ast := [.inr 4]) rfl .nil rfl, rfl, rfl⟩

/-! ## The compiled program is that of the items -/

/-- The items that a call adds. -/
def Call.items {I E : Type} : Call I E → List I
  | .add (.ok l) | .addItem (.ok l) => l
  | _ => []

/-- The items of a context are those of the accepted programs, in their order. -/
theorem c94_items {Q : Type} (back : List I → Option (List String) → Except E Q) (q0 : Q) (calls : List (Call I E)) :
    (ICtx.run back q0 calls).items = calls.flatMap Call.items := by
  suffices h : ∀ c : ICtx I Q, (calls.foldl (fun c o => (c.call back o).1) c).items = c.items ++ calls.flatMap Call.items by
    unfold ICtx.run
    rw [h]
    rfl
  induction calls with
  | nil => simp
  | cons o calls ih =>
    intro c
    rw [List.foldl_cons, ih, List.flatMap_cons, ← List.append_assoc]
    congr 1
    cases o with
    | add r => cases r <;> simp [ICtx.call, ICtx.add, Call.items]
    | addItem r => cases r <;> simp [ICtx.call, ICtx.addItem, Call.items]
    | compile o =>
      simp only [ICtx.call, ICtx.compile, Call.items, List.append_nil]
      split
      · cases back c.items o <;> rfl
      · rfl

/-- If all outputs are always asked for, then after a compilation that succeeds the compiled program is that of all items added so far, or
nothing has been added and it is the first one. Partial: it is not if a call asked for certain outputs (`c94_outputs_false`). -/
theorem c94_fresh_partial {Q : Type} (back : List I → Option (List String) → Except E Q) (q0 : Q) (calls : List (Call I E))
    (hall : ∀ o, Call.compile o ∈ calls → o = none) (hok : ((ICtx.run back q0 calls).compile back none).2 = none) :
    let c := ((ICtx.run back q0 calls).compile back none).1
    back (calls.flatMap Call.items) none = .ok c.ram ∨ (calls.flatMap Call.items = [] ∧ c.ram = q0) := by
  have inv : ∀ (calls : List (Call I E)) (c : ICtx I Q), (∀ o, Call.compile o ∈ calls → o = none) →
      (c.changed = false → back c.items none = .ok c.ram ∨ (c.items = [] ∧ c.ram = q0)) →
      let c' := calls.foldl (fun c o => (c.call back o).1) c
      c'.changed = false → back c'.items none = .ok c'.ram ∨ (c'.items = [] ∧ c'.ram = q0) := by
    intro calls
    induction calls with
    | nil => intro c _ h; exact h
    | cons o calls ih =>
      intro c ho h
      refine ih _ (fun o h => ho o (List.mem_cons_of_mem _ h)) ?_
      cases o with
      | add r => cases r <;> simp only [ICtx.call, ICtx.add] <;> first | exact h | simp
      | addItem r => cases r <;> simp [ICtx.call, ICtx.addItem]
      | compile o =>
        obtain rfl := ho o (by simp)
        simp only [ICtx.call, ICtx.compile]
        split
        · next hc =>
          cases hb : back c.items none with
          | error e => simpa [hb] using h
          | ok q => simp [hb]
        · exact h
  have h1 := inv calls ⟨[], false, q0⟩ hall (fun _ => Or.inr ⟨rfl, rfl⟩)
  rw [← c94_items back q0 calls]
  change _ → _ at h1
  simp only [ICtx.compile] at hok ⊢
  change (ICtx.run back q0 calls).changed = false → _ at h1
  split
  · next hc =>
    rw [if_pos hc] at hok
    cases hb : back (ICtx.run back q0 calls).items none with
    | error e => simp [hb] at hok
    | ok q => simp
  · next hc => exact h1 (by simpa using hc)

/-- Refuted: outputs asked for after a compilation are ignored: a program with a rule is compiled, then compiled for its outputs `["b"]`
only, without an error, and the program is not that for these outputs. -/
theorem c94_outputs_false : ∃ (I Q : Type) (back : List I → Option (List String) → Except Unit Q) (q0 : Q) (i : I),
    let c := ICtx.run back q0 [.add (.ok [i]), .compile none]
    (c.compile back (some ["b"])).2 = none ∧ back c.items (some ["b"]) ≠ .ok (c.compile back (some ["b"])).1.ram :=
  ⟨Nat, List String, fun _ o => .ok (o.getD ["a", "b"]), [], 0, rfl, by simp [ICtx.run, ICtx.call, ICtx.add, ICtx.compile]⟩

/-- A program that is accepted when it is added but cannot be compiled, with any more items, makes every later compilation fail: it cannot
be taken back. -/
theorem c94_stuck {Q : Type} (back : List I → Option (List String) → Except E Q) (q0 : Q) (calls more : List (Call I E)) (bad : List I)
    (hbad : ∀ pre post o, ∃ e, back (pre ++ bad ++ post) o = .error e) (o : Option (List String)) :
    ((ICtx.run back q0 (calls ++ .add (.ok bad) :: more)).compile back o).2 ≠ none := by
  have hi : (ICtx.run back q0 (calls ++ .add (.ok bad) :: more)).items = calls.flatMap Call.items ++ bad ++ more.flatMap Call.items := by
    rw [c94_items]; simp [Call.items]
  have hch : ∀ (more : List (Call I E)) (c : ICtx I Q), (∃ pre post, c.items = pre ++ bad ++ post) → c.changed = true →
      (more.foldl (fun c o => (c.call back o).1) c).changed = true := by
    intro more
    induction more with
    | nil => intro c _ h; exact h
    | cons x more ih =>
      rintro c ⟨pre, post, hc⟩ h
      refine ih _ ?_ ?_
      · cases x with
        | add r =>
          cases r with
          | ok l => exact ⟨pre, post ++ l, by simp [ICtx.call, ICtx.add, hc]⟩
          | error e => exact ⟨pre, post, hc⟩
        | addItem r =>
          cases r with
          | ok l => exact ⟨pre, post ++ l, by simp [ICtx.call, ICtx.addItem, hc]⟩
          | error e => exact ⟨pre, post, hc⟩
        | compile o =>
          obtain ⟨e, he⟩ := hbad pre post o
          exact ⟨pre, post, by simp only [ICtx.call, ICtx.compile, h, if_true, hc, he]⟩
      · cases x with
        | add r => cases r <;> simp [ICtx.call, ICtx.add, h]
        | addItem r => cases r <;> simp [ICtx.call, ICtx.addItem]
        | compile o =>
          obtain ⟨e, he⟩ := hbad pre post o
          simp only [ICtx.call, ICtx.compile, h, if_true, hc, he]
  have hc : (ICtx.run back q0 (calls ++ .add (.ok bad) :: more)).changed = true := by
    unfold ICtx.run
    rw [List.foldl_append, List.foldl_cons]
    refine hch more _ ?_ rfl
    exact ⟨(ICtx.run back q0 calls).items, [], by simp [ICtx.call, ICtx.add, ICtx.run]⟩
  obtain ⟨e, he⟩ := hbad (calls.flatMap Call.items) (more.flatMap Call.items) o
  simp only [ICtx.compile, hc, if_true, hi, he]
  simp

-- rules as pairs (head, negated body atom): a relation that depends on its own negation cannot be compiled, with whatever other rules
example : ∀ (pre post : List (String × String)) (o : Option (List String)), ∃ e : String,
    (fun (l : List (String × String)) (_ : Option (List String)) => if l.any fun r => r.1 = r.2 then .error "not stratified" else .ok l :
      List (String × String) → Option (List String) → Except String (List (String × String))) (pre ++ [("p", "p")] ++ post) o = .error e := by
  intro pre post o
  exact ⟨"not stratified", by simp⟩

example : ((ICtx.run (fun l (_ : Option (List String)) => (.ok l.length : Except Unit Nat)) 0
    [.add (.ok [1, 2]), .compile none, .add (.error ()), .addItem (.ok [3])]).compile (fun l _ => (.ok l.length : Except Unit Nat)) none).1.ram = 3 := rfl

end Scallop.Compile
