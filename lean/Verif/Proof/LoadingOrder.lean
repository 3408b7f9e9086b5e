import Verif.Proof.Loading

/-!
# The order in which sources are loaded, and that loading ends
-/

namespace Scallop.Compile

variable {I A R E : Type} {L : Lang I A R E} {fs : Files}

theorem step_sources {v v' : View I A R} {src : Src} {ast : List I} (h : v.step L src ast = .ok v') :
    v'.sources = v.sources ++ [src] ∧ v'.imported = v.imported ∧ v.items <+: v'.items ∧ v.forget.step L src ast = .ok v'.forget := by
  unfold View.step at h
  simp only at h
  split at h
  · simp at h
  · next a preds ast' hat =>
    split at h
    · simp at h
    · next hp =>
      split at h
      · simp at h
      · next hm =>
        simp only [Except.ok.injEq] at h
        subst h
        refine ⟨rfl, rfl, List.prefix_append _ _, ?_⟩
        unfold View.step
        simp only [View.forget, hat]
        simp only [hp, hm]
        rfl

theorem addImport_forget {v : View I A R} {src : Src} : (v.addImport fs src).forget = v.forget := by
  unfold View.addImport
  cases src.path <;> rfl

theorem addImport_sources {v : View I A R} {src : Src} : (v.addImport fs src).sources = v.sources ∧ (v.addImport fs src).items = v.items := by
  unfold View.addImport
  cases src.path <;> exact ⟨rfl, rfl⟩

theorem addImport_imported {v : View I A R} {src : Src} {p : String} :
    p ∈ (v.addImport fs src).imported ↔ p ∈ v.imported ∨ fileOf fs src = some p := by
  unfold View.addImport fileOf
  cases src.path with
  | none => simp
  | some q => simp [or_comm, eq_comm]

theorem steps_append {v v1 v2 : View I A R} {o1 o2 : List Src} (h1 : Steps L v o1 v1) (h2 : Steps L v1 o2 v2) : Steps L v (o1 ++ o2) v2 := by
  induction h1 with
  | nil => exact h2
  | cons hp hs _ ih => exact .cons hp hs (ih h2)

/-- Files of a list of sources. -/
def files (fs : Files) (o : List Src) : List String := o.filterMap (fileOf fs)

theorem files_append (o1 o2 : List Src) : files fs (o1 ++ o2) = files fs o1 ++ files fs o2 := List.filterMap_append

/-- What is known of the sources `o` that were loaded for the imports `ims` of `src`. -/
structure AllFacts (L : Lang I A R E) (fs : Files) (v : View I A R) (src : Src) (ims : List String) (o : List Src) (v' : View I A R) : Prop where
  sources : v'.sources = v.sources ++ o
  items : v.items <+: v'.items
  imported : ∀ p, p ∈ v'.imported ↔ p ∈ v.imported ∨ p ∈ files fs o
  steps : Steps L v.forget o v'.forget
  nodup : (files fs o).Nodup
  fresh : ∀ p ∈ files fs o, p ∉ v.imported
  before : ∀ (i : Nat) (s : Src), o[i]? = some s → ∀ f ∈ importsOf L s, ∃ j < i, ∃ text, fs.read (fs.resolve s.path f) = some text ∧
    o[j]? = some (⟨some (fs.resolve s.path f), text⟩ : Src)
  own : ∀ f ∈ ims, ∃ (j : Nat) (text : String), fs.read (fs.resolve src.path f) = some text ∧ o[j]? = some (⟨some (fs.resolve src.path f), text⟩ : Src)
  perm : (o.flatMap (targets L fs) ++ ims.map fun f => fs.canon (fs.resolve src.path f)).Perm (files fs o)

/-- What is known of the sources that were loaded for `src`. -/
structure LoadFacts (L : Lang I A R E) (fs : Files) (v : View I A R) (src : Src) (order : List Src) (v' : View I A R) : Prop where
  ex : ∃ o, order = o ++ [src] ∧ (files fs o).Nodup ∧ (∀ p ∈ files fs o, p ∉ v.imported ∧ fileOf fs src ≠ some p) ∧
    (order.flatMap (targets L fs)).Perm (files fs o)
  sources : v'.sources = v.sources ++ order
  items : v.items <+: v'.items
  imported : ∀ p, p ∈ v'.imported ↔ p ∈ v.imported ∨ p ∈ files fs order
  steps : Steps L v.forget order v'.forget
  before : ∀ (i : Nat) (s : Src), order[i]? = some s → ∀ f ∈ importsOf L s, ∃ j < i, ∃ text, fs.read (fs.resolve s.path f) = some text ∧
    order[j]? = some (⟨some (fs.resolve s.path f), text⟩ : Src)

theorem loads_facts {v v' : View I A R} {src : Src} {order : List Src} (h : Loads L fs v src order v') : LoadFacts L fs v src order v' := by
  induction h using Loads.rec (motive_2 := fun v src ims o v' _ => AllFacts L fs v src ims o v') with
  | @mk v v1 v2 src ast o hp _ hs ih =>
    obtain ⟨s1, s2, s3, s4⟩ := step_sources hs
    have him : importsOf L src = ast.filterMap L.importOf := by simp [importsOf, hp]
    refine ⟨⟨o, rfl, ih.nodup, fun p hp' => ?_, ?_⟩, ?_, ?_, fun p => ?_, ?_, fun i s hi f hf => ?_⟩
    · have := ih.fresh p hp'
      rw [addImport_imported] at this
      exact not_or.1 this
    · have := ih.perm
      simpa [List.flatMap_append, targets, him] using this
    · rw [s1, ih.sources, addImport_sources.1, List.append_assoc]
    · rw [← (addImport_sources (fs := fs) (v := v) (src := src)).2]
      exact ih.items.trans s3
    · rw [s2, ih.imported, addImport_imported, files_append, List.mem_append, or_assoc]
      have : fileOf fs src = some p ↔ p ∈ files fs [src] := by
        simp only [files, List.mem_filterMap, List.mem_singleton, exists_eq_left]
      rw [this, or_comm (a := p ∈ files fs [src])]
    · have h1 := ih.steps
      rw [addImport_forget] at h1
      exact steps_append h1 (.cons hp s4 .nil)
    · rcases Nat.lt_or_ge i o.length with hlt | hge
      · rw [List.getElem?_append_left hlt] at hi
        obtain ⟨j, hj, text, h1, h2⟩ := ih.before i s hi f hf
        exact ⟨j, hj, text, h1, by rw [List.getElem?_append_left (by omega)]; exact h2⟩
      · rw [List.getElem?_append_right hge] at hi
        have hi0 : i - o.length = 0 := by
          by_contra hne
          rw [List.getElem?_eq_none (by simp; omega)] at hi
          simp at hi
        rw [hi0] at hi
        simp only [List.getElem?_cons_zero, Option.some.injEq] at hi
        subst hi
        obtain ⟨j, text, h1, h2⟩ := ih.own f (by rw [← him]; exact hf)
        obtain ⟨hj, -⟩ := List.getElem?_eq_some_iff.1 h2
        exact ⟨j, by omega, text, h1, by rw [List.getElem?_append_left hj]; exact h2⟩
  | nil =>
    refine ⟨by simp, List.prefix_refl _, by simp [files], .nil, by simp [files], by simp [files], by simp, by simp, by simp [files]⟩
  | @cons v v1 v2 src f rest text o1 o2 hr hc h1 h2 ih1 ih2 =>
    obtain ⟨o, rfl, e1, e2, e3⟩ := ih1.ex
    have hfile : files fs [(⟨some (fs.resolve src.path f), text⟩ : Src)] = [fs.canon (fs.resolve src.path f)] := by simp [files, fileOf]
    have hnd1 : (files fs (o ++ [⟨some (fs.resolve src.path f), text⟩])).Nodup := by
      rw [files_append, hfile, List.nodup_append]
      refine ⟨e1, by simp, fun a ha b hb => ?_⟩
      simp only [List.mem_singleton] at hb
      subst hb
      rintro rfl
      exact (e2 _ ha).2 (by simp [fileOf])
    have hfr1 : ∀ p ∈ files fs (o ++ [⟨some (fs.resolve src.path f), text⟩]), p ∉ v.imported := by
      intro p hp
      rw [files_append, hfile, List.mem_append, List.mem_singleton] at hp
      rcases hp with hp | rfl
      · exact (e2 p hp).1
      · exact hc
    refine ⟨?_, ih1.items.trans ih2.items, fun p => ?_, steps_append ih1.steps ih2.steps, ?_, fun p hp => ?_, fun i s hi g hg => ?_, fun g hg => ?_, ?_⟩
    · rw [ih2.sources, ih1.sources, List.append_assoc]
    · rw [ih2.imported, ih1.imported, files_append (o ++ _) o2, List.mem_append, or_assoc]
    · rw [files_append, List.nodup_append]
      refine ⟨hnd1, ih2.nodup, fun a ha b hb => ?_⟩
      rintro rfl
      exact ih2.fresh a hb ((ih1.imported a).2 (Or.inr ha))
    · rw [files_append, List.mem_append] at hp
      rcases hp with hp | hp
      · exact hfr1 p hp
      · exact fun hm => ih2.fresh p hp ((ih1.imported p).2 (Or.inl hm))
    · rcases Nat.lt_or_ge i (o ++ [(⟨some (fs.resolve src.path f), text⟩ : Src)]).length with hlt | hge
      · rw [List.getElem?_append_left hlt] at hi
        obtain ⟨j, hj, t, g1, g2⟩ := ih1.before i s hi g hg
        exact ⟨j, hj, t, g1, by rw [List.getElem?_append_left (by omega)]; exact g2⟩
      · rw [List.getElem?_append_right hge] at hi
        obtain ⟨j, hj, t, g1, g2⟩ := ih2.before _ s hi g hg
        exact ⟨j + (o ++ [(⟨some (fs.resolve src.path f), text⟩ : Src)]).length, by omega, t, g1,
          by rw [List.getElem?_append_right (by omega)]; simpa using g2⟩
    · rcases List.mem_cons.1 hg with rfl | hg
      · exact ⟨o.length, text, hr, by rw [List.getElem?_append_left (by simp)]; simp⟩
      · obtain ⟨j, t, g1, g2⟩ := ih2.own g hg
        exact ⟨j + (o ++ [(⟨some (fs.resolve src.path f), text⟩ : Src)]).length, t, g1,
          by rw [List.getElem?_append_right (by omega)]; simpa using g2⟩
    · rw [files_append, files_append, hfile, List.flatMap_append, List.map_cons]
      have p2 := ih2.perm
      have : (List.flatMap (targets L fs) (o ++ [⟨some (fs.resolve src.path f), text⟩]) ++ List.flatMap (targets L fs) o2 ++
          fs.canon (fs.resolve src.path f) :: List.map (fun f => fs.canon (fs.resolve src.path f)) rest).Perm
          ((List.flatMap (targets L fs) (o ++ [⟨some (fs.resolve src.path f), text⟩]) ++ [fs.canon (fs.resolve src.path f)]) ++
            (List.flatMap (targets L fs) o2 ++ List.map (fun f => fs.canon (fs.resolve src.path f)) rest)) := by
        rw [List.append_assoc, List.append_assoc]
        refine List.Perm.append_left _ ?_
        exact List.perm_middle
      exact this.trans ((e3.append_right _).append p2)

/-! ## Loading ends -/

/-- The number of files not imported. -/
def rest (N imp : List String) : Nat := N.countP (fun p => decide (p ∉ imp))

theorem rest_mono {N imp imp' : List String} (h : ∀ p ∈ imp, p ∈ imp') : rest N imp' ≤ rest N imp := by
  unfold rest
  refine List.countP_mono_left fun p _ hp => ?_
  simp only [decide_eq_true_eq] at hp ⊢
  exact fun hm => hp (h p hm)

theorem rest_lt {N imp : List String} {p : String} (hp : p ∈ N) (hn : p ∉ imp) : rest N (p :: imp) < rest N imp := by
  induction N with
  | nil => simp at hp
  | cons q N ih =>
    unfold rest at ih ⊢
    simp only [List.countP_cons]
    have mono : List.countP (fun r => decide (r ∉ p :: imp)) N ≤ List.countP (fun r => decide (r ∉ imp)) N :=
      rest_mono (N := N) (imp := imp) (imp' := p :: imp) fun _ h => List.mem_cons_of_mem _ h
    rcases List.mem_cons.1 hp with rfl | hp
    · simp [hn]
      simpa using Nat.lt_succ_of_le mono
    · have := ih hp
      by_cases hq : q = p
      · subst hq; simp [hn]; simpa using Nat.lt_succ_of_lt this
      · by_cases hq' : q ∈ imp
        · simpa [hq, hq'] using this
        · simpa [hq, hq'] using this

theorem imports_total {N : List String} (hN : ∀ p, (fs.read p).isSome → fs.canon p ∈ N)
    {comp : Heap A → Ctx I R → Src → Option (Heap A × Ctx I R × Out E)} {n : Nat}
    (hcs : ∀ h self src v r, self.analysis < h.cells.length → self.view h = some v → comp h self src = some r → Refines L fs h self v src r)
    (hct : ∀ h (self : Ctx I R) src, self.analysis < h.cells.length → 1 + rest N (self.addImport fs src).imported ≤ n → comp h self src ≠ none)
    {src : Src} : ∀ {ims : List String} {h : Heap A} {c : Ctx I R}, c.analysis < h.cells.length → rest N c.imported ≤ n →
    imports L fs comp src h c ims ≠ none
  | [], h, c, _, _ => by simp [imports]
  | f :: ims, h, c, hc, hn => by
    simp only [imports]
    cases hr : fs.read (fs.resolve src.path f) with
    | none => simp
    | some text =>
      simp only
      split
      · simp
      · next hm =>
        have hlt := rest_lt (hN (fs.resolve src.path f) (by rw [hr]; rfl)) hm
        have hne := hct h c ⟨some (fs.resolve src.path f), text⟩ hc (by simp only [Ctx.addImport]; omega)
        obtain ⟨v, hv⟩ := view_some hc
        cases hcc : comp h c ⟨some (fs.resolve src.path f), text⟩ with
        | none => exact absurd hcc hne
        | some q =>
          have href := hcs _ _ _ _ _ hc hv hcc
          obtain ⟨h', c', out⟩ := q
          cases out with
          | ok k =>
            obtain ⟨o, v', hl, hmv, hv', -⟩ := href
            refine imports_total hN hcs hct hmv.lt (Nat.le_trans (rest_mono fun p hp => ?_) hn)
            rw [← view_imported hv', (loads_facts hl).imported]
            left
            rw [view_imported hv]
            exact hp
          | err es => simp
          | panic => simp

theorem compile_total {N : List String} (hN : ∀ p, (fs.read p).isSome → fs.canon p ∈ N) : ∀ {fuel : Nat} {h : Heap A} {self : Ctx I R}
    {src : Src}, self.analysis < h.cells.length → 1 + rest N (self.addImport fs src).imported ≤ fuel → compile L fs fuel h self src ≠ none
  | 0, _, _, _, _, hf => by omega
  | fuel + 1, h, self, src, hs, hf => by
    simp only [compile]
    cases hp : L.parse src.text with
    | error e => simp
    | ok ast =>
      simp only
      have hl : (self.addImport fs src).analysis < (h.clone self.analysis).cells.length := by
        have : (self.addImport fs src).analysis = self.analysis := by unfold Ctx.addImport; cases src.path <;> rfl
        rw [this]; exact hs
      have := imports_total (L := L) hN (comp := compile L fs fuel) (n := fuel) (fun h self src v r h1 h2 h3 => compile_spec h1 h2 h3)
        (fun h self src h1 h2 => compile_total hN h1 h2) (src := src) (ims := ast.filterMap L.importOf) hl (by omega)
      cases hi : imports L fs (compile L fs fuel) src (h.clone self.analysis) (self.addImport fs src) (ast.filterMap L.importOf) with
      | none => exact absurd hi this
      | some q => obtain ⟨h', c', out⟩ := q; cases out <;> simp

end Scallop.Compile
