import Verif.Spec.Loading
import Mathlib.Data.List.Basic
import Mathlib.Data.List.Nodup

/-!
# Lemmas about the compiler context
-/

namespace Scallop.Compile

variable {I A R E : Type}

/-! ## Ownership -/

/-- Compared with the heap `h0`, the heap `h` has more cells, and `c` is one more owner. -/
structure Own (h0 h : Heap A) (c : Nat) : Prop where
  pre : h0.cells <+: h.cells
  lt : c < h.cells.length
  refs : ∀ i < h0.cells.length, h.refs i = h0.refs i + if i = c then 1 else 0
  one : h0.cells.length ≤ c → h.refs c = 1

/-- Compared with the heap `h0`, the heap `h` has more cells, and the owners of the old ones are the same. -/
structure Same (h0 h : Heap A) : Prop where
  pre : h0.cells <+: h.cells
  refs : ∀ i < h0.cells.length, h.refs i = h0.refs i

/-- Compared with the heap `h0`, the heap `h` has more cells; `c` is the only owner of a new one, and the old one `c0` has lost an owner. -/
structure Moved (h0 h : Heap A) (c0 c : Nat) : Prop where
  pre : h0.cells <+: h.cells
  lt : c < h.cells.length
  new : h0.cells.length ≤ c
  refs : ∀ i < h0.cells.length, h.refs i = h0.refs i - if i = c0 then 1 else 0
  one : h.refs c = 1

theorem own_clone {h : Heap A} {c : Nat} (hc : c < h.cells.length) : Own h (h.clone c) c := by
  refine ⟨List.prefix_refl _, hc, fun i hi => ?_, fun h' => absurd hc (by omega)⟩
  simp only [Heap.clone]
  split <;> simp

theorem own_drop {h0 h : Heap A} {c : Nat} (ho : Own h0 h c) : Same h0 (h.drop c) := by
  refine ⟨ho.pre, fun i hi => ?_⟩
  simp only [Heap.drop]
  rw [ho.refs i hi]
  split <;> simp

theorem own_modify {h0 h : Heap A} {c : Nat} (ho : Own h0 h c) {O : Type} {f : A → A × O} {a : A} (ha : h.cells[c]? = some a) :
    ∃ h' c', h.modify c f = some (h', c', (f a).2) ∧ Own h0 h' c' ∧ h0.cells.length ≤ c' ∧ h'.cells[c']? = some (f a).1 := by
  have hl := ho.pre.length_le
  refine ⟨(h.alloc (f a).1).1.drop c, h.cells.length, by simp only [Heap.modify, ha]; rfl, ⟨?_, ?_, fun i hi => ?_, fun _ => ?_⟩, hl, ?_⟩
  · exact ho.pre.trans (List.prefix_append _ _)
  · simp [Heap.drop, Heap.alloc]
  · have h1 : i ≠ h.cells.length := by omega
    simp only [Heap.drop, Heap.alloc, h1, if_false]
    rw [ho.refs i hi]
    split <;> simp
  · have := ho.lt
    have h1 : h.cells.length ≠ c := by omega
    simp [Heap.drop, Heap.alloc, h1]
  · simp [Heap.drop, Heap.alloc]

theorem own_inPlace {h0 h : Heap A} {c : Nat} (ho : Own h0 h c) (hn : h0.cells.length ≤ c) {O : Type} {f : A → A × O} {a : A}
    (ha : h.cells[c]? = some a) :
    ∃ h', h.modifyInPlace c f = some (h', (f a).2) ∧ Own h0 h' c ∧ h'.cells[c]? = some (f a).1 := by
  refine ⟨{ h with cells := h.cells.set c (f a).1 }, by simp only [Heap.modifyInPlace, ha, ho.one hn, if_true], ⟨?_, ?_, ho.refs, ho.one⟩, ?_⟩
  · obtain ⟨t, ht⟩ := ho.pre
    simp only
    rw [← ht, List.set_append_right _ _ hn]
    exact List.prefix_append _ _
  · simpa using ho.lt
  · simp [ho.lt]

theorem own_moved {h0 h h' : Heap A} {c c' : Nat} (ho : Own h0 h c) (hm : Moved h h' c c') : Own h0 h' c' := by
  have hl := ho.pre.length_le
  have hn := hm.new
  refine ⟨ho.pre.trans hm.pre, hm.lt, fun i hi => ?_, fun _ => hm.one⟩
  have h1 : i ≠ c' := by omega
  rw [hm.refs i (by omega), ho.refs i hi]
  simp only [h1, if_false]
  split <;> simp

theorem own_same {h0 h h' : Heap A} {c : Nat} (ho : Own h0 h c) (hs : Same h h') : Own h0 h' c := by
  have hl := ho.pre.length_le
  refine ⟨ho.pre.trans hs.pre, Nat.lt_of_lt_of_le ho.lt hs.pre.length_le, fun i hi => ?_, fun hn => ?_⟩
  · rw [hs.refs i (by omega), ho.refs i hi]
  · rw [hs.refs c ho.lt, ho.one hn]

theorem moved_of_own {h0 h : Heap A} {c0 c : Nat} (ho : Own h0 h c) (hn : h0.cells.length ≤ c) (hc : c0 < h0.cells.length) :
    Moved h0 (h.drop c0) c0 c := by
  refine ⟨ho.pre, ho.lt, hn, fun i hi => ?_, ?_⟩
  · have h1 : i ≠ c := by omega
    simp only [Heap.drop]
    rw [ho.refs i hi]
    simp only [h1, if_false]
    split <;> simp
  · have h1 : c ≠ c0 := by omega
    simp only [Heap.drop, h1, if_false]
    exact ho.one hn

theorem prefix_get {l l' : List A} (h : l <+: l') {i : Nat} (hi : i < l.length) : l'[i]? = l[i]? := by
  obtain ⟨t, rfl⟩ := h
  rw [List.getElem?_append_left hi]

/-! ## The step of one source -/

section
variable {L : Lang I A R E} {fs : Files}

/-- What `finish` does, on contents. -/
theorem finish_spec {h0 h : Heap A} {self dup : Ctx I R} {src : Src} {ast : List I} {v : View I A R} (ho : Own h0 h dup.analysis)
    (hs : self.analysis < h0.cells.length) (hv : dup.view h = some v) :
    (∃ h' self' n v', finish L h self dup src ast = (h', self', .ok n) ∧ v.step L src ast = .ok v' ∧
      Moved h0 h' self.analysis self'.analysis ∧ self'.view h' = some v' ∧ v'.sources.length = n + 1) ∨
    (∃ h' es, finish L h self dup src ast = (h', self, .err es) ∧ v.step L src ast = .error es ∧ Same h0 h') := by
  simp only [Ctx.view, Option.map_eq_some_iff] at hv
  obtain ⟨a, ha, rfl⟩ := hv
  unfold finish View.step
  simp only [ha]
  cases hat : L.attrs a dup.preds (L.annotate dup.nextId dup.sources.length ast).1 with
  | error e => exact Or.inr ⟨_, _, rfl, rfl, own_drop ho⟩
  | ok r =>
    obtain ⟨⟨a1, preds⟩, ast1⟩ := r
    simp only
    obtain ⟨h1, c1, e1, o1, n1, g1⟩ := own_modify ho (f := fun _ => (a1, ())) ha
    simp only [e1]
    obtain ⟨h2, c2, e2, o2, n2, g2⟩ := own_modify o1 (f := fun a => L.pre a ast1) g1
    simp only [e2]
    by_cases hp : (L.pre a1 ast1).2.any L.isError = true
    · simp only [hp, if_true]
      exact Or.inr ⟨_, _, rfl, rfl, own_drop o2⟩
    · simp only [hp]
      obtain ⟨h3, e3, o3, g3⟩ := own_inPlace o2 n2 (f := fun a => L.transform a ast1) g2
      simp only [e3]
      obtain ⟨h4, c4, e4, o4, n4, g4⟩ := own_modify o3 (f := fun a => ((L.main a preds (L.annotate (L.annotate dup.nextId dup.sources.length ast).2 dup.sources.length
        (L.transform (L.pre a1 ast1).1 ast1).2).1).1, (L.main a preds (L.annotate (L.annotate dup.nextId dup.sources.length ast).2 dup.sources.length
        (L.transform (L.pre a1 ast1).1 ast1).2).1).2)) g3
      simp only [e4]
      by_cases hm : ((L.pre a1 ast1).2 ++ (L.main (L.transform (L.pre a1 ast1).1 ast1).1 preds (L.annotate (L.annotate dup.nextId dup.sources.length ast).2 dup.sources.length
        (L.transform (L.pre a1 ast1).1 ast1).2).1).2.2).any L.isError = true
      · simp only [hm, if_true]
        exact Or.inr ⟨_, _, rfl, rfl, own_drop o4⟩
      · simp only [hm]
        refine Or.inl ⟨_, _, _, _, rfl, rfl, moved_of_own o4 n4 hs, ?_⟩
        simp [Ctx.view, Heap.drop, g4]

theorem view_addImport {h : Heap A} {c : Ctx I R} {v : View I A R} {src : Src} (hv : c.view h = some v) :
    (c.addImport fs src).view h = some (v.addImport fs src) ∧ (c.addImport fs src).analysis = c.analysis ∧ v.imported = c.imported := by
  simp only [Ctx.view, Option.map_eq_some_iff] at hv
  obtain ⟨a, ha, rfl⟩ := hv
  unfold Ctx.addImport View.addImport
  cases hp : src.path <;> simp [Ctx.view, ha]

theorem view_imported {h : Heap A} {c : Ctx I R} {v : View I A R} (hv : c.view h = some v) : v.imported = c.imported := by
  simp only [Ctx.view, Option.map_eq_some_iff] at hv
  obtain ⟨a, ha, rfl⟩ := hv
  rfl

theorem view_mono {h h' : Heap A} {c : Ctx I R} (hp : h.cells <+: h'.cells) (hc : c.analysis < h.cells.length) : c.view h' = c.view h := by
  simp only [Ctx.view, prefix_get hp hc]

theorem view_some {h : Heap A} {c : Ctx I R} (hc : c.analysis < h.cells.length) : ∃ v, c.view h = some v := by
  simp only [Ctx.view, List.getElem?_eq_getElem hc, Option.map_some]
  exact ⟨_, rfl⟩

/-! ## Determinism -/

theorem loads_det : (∀ {v : View I A R} {src o1 v1}, Loads L fs v src o1 v1 → ∀ {o2 v2}, Loads L fs v src o2 v2 → o1 = o2 ∧ v1 = v2) ∧
    (∀ {v : View I A R} {src ims o1 v1}, LoadsAll L fs v src ims o1 v1 → ∀ {o2 v2}, LoadsAll L fs v src ims o2 v2 → o1 = o2 ∧ v1 = v2) := by
  constructor
  · intro v src o1 v1 h
    induction h using Loads.rec (motive_2 := fun v src ims o1 v1 _ => ∀ {o2 v2}, LoadsAll L fs v src ims o2 v2 → o1 = o2 ∧ v1 = v2) with
    | mk hp _ hs ih =>
      intro o2 v2 h2
      cases h2 with
      | mk hp' ha hs' =>
        rw [hp] at hp'
        simp only [Except.ok.injEq] at hp'
        subst hp'
        obtain ⟨rfl, rfl⟩ := ih ha
        rw [hs] at hs'
        simp only [Except.ok.injEq] at hs'
        exact ⟨rfl, hs'⟩
    | nil => rename_i h2; cases h2; exact ⟨rfl, rfl⟩
    | cons hr hc _ _ ih1 ih2 =>
      rename_i h2
      cases h2 with
      | cons hr' hc' h1' h2' =>
        rw [hr] at hr'
        simp only [Option.some.injEq] at hr'
        subst hr'
        obtain ⟨rfl, rfl⟩ := ih1 h1'
        obtain ⟨rfl, rfl⟩ := ih2 h2'
        exact ⟨rfl, rfl⟩
  · intro v src ims o1 v1 h
    induction h using LoadsAll.rec (motive_1 := fun v src o1 v1 _ => ∀ {o2 v2}, Loads L fs v src o2 v2 → o1 = o2 ∧ v1 = v2) with
    | mk hp _ hs ih =>
      rename_i h2
      cases h2 with
      | mk hp' ha hs' =>
        rw [hp] at hp'
        simp only [Except.ok.injEq] at hp'
        subst hp'
        obtain ⟨rfl, rfl⟩ := ih ha
        rw [hs] at hs'
        simp only [Except.ok.injEq] at hs'
        exact ⟨rfl, hs'⟩
    | nil => intro o2 v2 h2; cases h2; exact ⟨rfl, rfl⟩
    | cons hr hc _ _ ih1 ih2 =>
      intro o2 v2 h2
      cases h2 with
      | cons hr' hc' h1' h2' =>
        rw [hr] at hr'
        simp only [Option.some.injEq] at hr'
        subst hr'
        obtain ⟨rfl, rfl⟩ := ih1 h1'
        obtain ⟨rfl, rfl⟩ := ih2 h2'
        exact ⟨rfl, rfl⟩

/-! ## Compilation refines loading -/

/-- What a compilation does, on contents. -/
def Refines (L : Lang I A R E) (fs : Files) (h0 : Heap A) (self : Ctx I R) (v : View I A R) (src : Src) : Heap A × Ctx I R × Out E → Prop
  | (h, self', .ok n) => ∃ order v', Loads L fs v src order v' ∧ Moved h0 h self.analysis self'.analysis ∧ self'.view h = some v' ∧
      v'.sources.length = n + 1
  | (h, self', .err _) => (∀ order v', ¬ Loads L fs v src order v') ∧ Same h0 h ∧ self' = self
  | (_, _, .panic) => False

theorem imports_spec {comp : Heap A → Ctx I R → Src → Option (Heap A × Ctx I R × Out E)}
    (hc : ∀ h self src v r, self.analysis < h.cells.length → self.view h = some v → comp h self src = some r → Refines L fs h self v src r)
    {src : Src} : ∀ {ims : List String} {h0 h : Heap A} {c : Ctx I R} {v : View I A R} {r}, Own h0 h c.analysis → c.view h = some v →
    imports L fs comp src h c ims = some r →
    match r with
    | (h', c', .ok _) => ∃ order v', LoadsAll L fs v src ims order v' ∧ Own h0 h' c'.analysis ∧ c'.view h' = some v'
    | (h', c', .err _) => (∀ order v', ¬ LoadsAll L fs v src ims order v') ∧ Own h0 h' c'.analysis
    | (_, _, .panic) => False
  | [], h0, h, c, v, r, ho, hv, hi => by
    simp only [imports, Option.some.injEq] at hi
    subst hi
    exact ⟨[], v, .nil, ho, hv⟩
  | f :: rest, h0, h, c, v, r, ho, hv, hi => by
    simp only [imports] at hi
    cases hr : fs.read (fs.resolve src.path f) with
    | none =>
      rw [hr] at hi
      simp only [Option.some.injEq] at hi
      subst hi
      refine ⟨fun order v' hl => ?_, ho⟩
      cases hl with
      | cons hr' _ _ _ => rw [hr] at hr'; simp at hr'
    | some text =>
      rw [hr] at hi
      simp only at hi
      split at hi
      · next hm =>
        simp only [Option.some.injEq] at hi
        subst hi
        refine ⟨fun order v' hl => ?_, ho⟩
        cases hl with
        | cons _ hm' _ _ => rw [view_imported hv] at hm'; exact hm' hm
      · next hm =>
        cases hcc : comp h c ⟨some (fs.resolve src.path f), text⟩ with
        | none => rw [hcc] at hi; simp at hi
        | some q =>
          have href := hc _ _ _ _ _ ho.lt hv hcc
          rw [hcc] at hi
          obtain ⟨h', c', out⟩ := q
          cases out with
          | ok n =>
            simp only at hi
            obtain ⟨o1, v1, hl1, hm1, hv1, -⟩ := href
            have ih := imports_spec hc (own_moved ho hm1) hv1 hi
            obtain ⟨h2, c2, out⟩ := r
            cases out with
            | ok _ =>
              obtain ⟨o2, v2, hl2, ho2, hv2⟩ := ih
              exact ⟨_, _, .cons hr (by rwa [view_imported hv]) hl1 hl2, ho2, hv2⟩
            | err es =>
              refine ⟨fun order v' hl => ?_, ih.2⟩
              cases hl with
              | cons hr' _ g1 g2 =>
                rw [hr] at hr'
                simp only [Option.some.injEq] at hr'
                subst hr'
                obtain ⟨rfl, rfl⟩ := loads_det.1 hl1 g1
                exact ih.1 _ _ g2
            | panic => exact ih
          | err es =>
            simp only [Option.some.injEq] at hi
            subst hi
            obtain ⟨g1, g2, rfl⟩ := href
            refine ⟨fun order v' hl => ?_, own_same ho g2⟩
            cases hl with
            | cons hr' _ k1 k2 =>
              rw [hr] at hr'
              simp only [Option.some.injEq] at hr'
              subst hr'
              exact g1 _ _ k1
          | panic => exact href.elim

theorem compile_spec : ∀ {fuel : Nat} {h : Heap A} {self : Ctx I R} {src : Src} {v : View I A R} {r}, self.analysis < h.cells.length →
    self.view h = some v → compile L fs fuel h self src = some r → Refines L fs h self v src r
  | 0, _, _, _, _, _, _, _, hc => by simp [compile] at hc
  | fuel + 1, h, self, src, v, r, hs, hv, hc => by
    simp only [compile] at hc
    have ho := own_clone hs
    cases hp : L.parse src.text with
    | error e =>
      rw [hp] at hc
      simp only [Option.some.injEq] at hc
      subst hc
      refine ⟨fun order v' hl => ?_, own_drop ho, rfl⟩
      cases hl with
      | mk hp' _ _ => rw [hp] at hp'; simp at hp'
    | ok ast =>
      rw [hp] at hc
      simp only at hc
      have hv' : self.view (h.clone self.analysis) = some v := hv
      obtain ⟨w1, w2, w3⟩ := view_addImport (fs := fs) (src := src) hv'
      cases hi : imports L fs (compile L fs fuel) src (h.clone self.analysis) (self.addImport fs src) (ast.filterMap L.importOf) with
      | none => rw [hi] at hc; simp at hc
      | some q =>
        have hq := imports_spec (L := L) (fs := fs) (comp := compile L fs fuel) (fun h self src v r h1 h2 h3 => compile_spec h1 h2 h3)
          (h0 := h) (c := self.addImport fs src) (by rw [w2]; exact ho) w1 hi
        rw [hi] at hc
        obtain ⟨h', dup, out⟩ := q
        cases out with
        | panic => exact hq.elim
        | err es =>
          simp only [Option.some.injEq] at hc
          subst hc
          refine ⟨fun order v' hl => ?_, own_drop hq.2, rfl⟩
          cases hl with
          | mk hp' ha _ =>
            rw [hp] at hp'
            simp only [Except.ok.injEq] at hp'
            subst hp'
            exact hq.1 _ _ ha
        | ok n =>
          simp only [Option.some.injEq] at hc
          obtain ⟨order, v1, hl, ho1, hv1⟩ := hq
          rcases finish_spec (L := L) (src := src) (ast := ast) ho1 hs hv1 with ⟨h2, self2, n2, v2, e1, e2, e3, e4, e5⟩ | ⟨h2, es, e1, e2, e3⟩
          · rw [e1] at hc
            subst hc
            exact ⟨_, _, .mk hp hl e2, e3, e4, e5⟩
          · rw [e1] at hc
            subst hc
            refine ⟨fun order' v' hl' => ?_, e3, rfl⟩
            cases hl' with
            | mk hp' ha hs' =>
              rw [hp] at hp'
              simp only [Except.ok.injEq] at hp'
              subst hp'
              obtain ⟨rfl, rfl⟩ := loads_det.2 hl ha
              rw [e2] at hs'
              simp at hs'
end
end Scallop.Compile
