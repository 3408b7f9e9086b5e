import Verif.Proof.Statics

namespace Scallop.Statics

open Scallop

variable {V T W ι κ : Type*} [LinearOrder V]

/-! ### Batches of compiled and interpreted dataflows -/

/-- The same batches, in some order. -/
def Same (B' B : List (Batch V T)) : Prop := (B'.map Batch.elems).Perm (B.map Batch.elems)

/-- Some of the batches. -/
def Some' (B' B : List (Batch V T)) : Prop := ∀ b ∈ B, ∃ b' ∈ B', b'.elems = b.elems

omit [LinearOrder V] in
theorem Same.some' {B' B : List (Batch V T)} (h : Same B' B) : Some' B' B := by
  intro b hb
  have := h.symm.subset (List.mem_map.mpr ⟨b, hb, rfl⟩)
  obtain ⟨b', hb', he⟩ := List.mem_map.mp this
  exact ⟨b', hb', he⟩

omit [LinearOrder V] in
theorem Same.mem {B' B : List (Batch V T)} (h : Same B' B) {b' : Batch V T} (hb : b' ∈ B') : ∃ b ∈ B, b.elems = b'.elems := by
  have := h.subset (List.mem_map.mpr ⟨b', hb, rfl⟩)
  obtain ⟨b, hb, he⟩ := List.mem_map.mp this
  exact ⟨b, hb, he⟩

/-- A compiled and an interpreted operator on one batch agree on batches satisfying `P`. -/
structure Like1 (f' f : Batch V T → Option (Batch V T)) (P Q : List (Elem (Tup V) T) → Prop) (F : List (Elem (Tup V) T) → List (Elem (Tup V) T)) : Prop where
  st : ∀ b r, P b.elems → f' b = some r → r.elems = F b.elems ∧ Q b.elems
  dy : ∀ b, P b.elems → Q b.elems → ∃ r, f b = some r ∧ r.elems = F b.elems

/-- The same for two batches. -/
structure Like2 (f' f : Batch V T → Batch V T → Option (Batch V T)) (P1 P2 : List (Elem (Tup V) T) → Prop)
    (Q : List (Elem (Tup V) T) → List (Elem (Tup V) T) → Prop) (F : List (Elem (Tup V) T) → List (Elem (Tup V) T) → List (Elem (Tup V) T)) : Prop where
  st : ∀ b1 b2 r, P1 b1.elems → P2 b2.elems → f' b1 b2 = some r → r.elems = F b1.elems b2.elems ∧ Q b1.elems b2.elems
  dy : ∀ b1 b2, P1 b1.elems → P2 b2.elems → Q b1.elems b2.elems → ∃ r, f b1 b2 = some r ∧ r.elems = F b1.elems b2.elems

omit [LinearOrder V] in
theorem mapM_lists {f : Batch V T → Option (Batch V T)} {F : List (Elem (Tup V) T) → List (Elem (Tup V) T)} : ∀ {B R : List (Batch V T)},
    (∀ b ∈ B, ∀ r, f b = some r → r.elems = F b.elems) → B.mapM f = some R → R.map Batch.elems = (B.map Batch.elems).map F := by
  intro B
  induction B with
  | nil => intro R _ h; simp at h; subst h; rfl
  | cons a B ih =>
    intro R hf h
    rw [List.mapM_cons] at h
    cases ha : f a with
    | none => simp [ha] at h
    | some b =>
      cases hl : B.mapM f with
      | none => simp [ha, hl] at h
      | some bs =>
        simp [ha, hl] at h
        subst h
        simp only [List.map_cons]
        rw [ih (fun b hb => hf b (List.mem_cons_of_mem _ hb)) hl, hf a (by simp) b ha]

omit [LinearOrder V] in
theorem binary_lists {f : Batch V T → Batch V T → Option (Batch V T)} {F : List (Elem (Tup V) T) → List (Elem (Tup V) T) → List (Elem (Tup V) T)}
    {B2 : List (Batch V T)} : ∀ {B1 R : List (Batch V T)}, (∀ b1 ∈ B1, ∀ b2 ∈ B2, ∀ r, f b1 b2 = some r → r.elems = F b1.elems b2.elems) →
    binaryBatches f B1 B2 = some R → R.map Batch.elems = (B1.map Batch.elems).flatMap (fun a => (B2.map Batch.elems).map (F a)) := by
  intro B1
  unfold binaryBatches
  induction B1 with
  | nil => intro R _ h; simp at h; subst h; rfl
  | cons a B1 ih =>
    intro R hf h
    rw [List.mapM_cons] at h
    cases ha : B2.mapM (f a) with
    | none => simp [ha] at h
    | some b =>
      cases hl : B1.mapM (fun b1 => B2.mapM (f b1)) with
      | none => simp [ha, hl] at h
      | some bs =>
        simp [ha, hl] at h
        subst h
        rw [List.map_append, List.map_cons, List.flatMap_cons, mapM_lists (hf a (by simp)) ha]
        rw [← ih (R := bs.flatten) (fun b hb => hf b (List.mem_cons_of_mem _ hb)) (by rw [hl]; rfl)]

omit [LinearOrder V] in
theorem binary_isSome {f : Batch V T → Batch V T → Option (Batch V T)} {B1 B2 : List (Batch V T)} (h : ∀ b1 ∈ B1, ∀ b2 ∈ B2, ∃ r, f b1 b2 = some r) :
    ∃ R, binaryBatches f B1 B2 = some R := by
  obtain ⟨r, hr⟩ : ∃ r, B1.mapM (fun b1 => B2.mapM (f b1)) = some r := mapM_isSome (fun b1 h1 => mapM_isSome (fun b2 h2 => h b1 h1 b2 h2))
  exact ⟨r.flatten, by unfold binaryBatches; rw [hr]; rfl⟩

omit [LinearOrder V] in
theorem binary_each {f : Batch V T → Batch V T → Option (Batch V T)} {B1 B2 R : List (Batch V T)} (h : binaryBatches f B1 B2 = some R) :
    ∀ b1 ∈ B1, ∀ b2 ∈ B2, ∃ r ∈ R, f b1 b2 = some r := by
  unfold binaryBatches at h
  rw [Option.map_eq_some_iff] at h
  obtain ⟨ls, h1, rfl⟩ := h
  intro b1 hb1 b2 hb2
  obtain ⟨l, hl, he⟩ := (mapM_mem h1).1 b1 hb1
  obtain ⟨r, hr, he⟩ := (mapM_mem he).1 b2 hb2
  exact ⟨r, List.mem_flatten.mpr ⟨l, hl, hr⟩, he⟩

omit [LinearOrder V] in
theorem Like1.same {f' f : Batch V T → Option (Batch V T)} {P Q : List (Elem (Tup V) T) → Prop} {F : List (Elem (Tup V) T) → List (Elem (Tup V) T)}
    (hl : Like1 f' f P Q F) {B' B R' : List (Batch V T)} (h : Same B' B) (hP : ∀ b ∈ B, P b.elems) (hR : B'.mapM f' = some R') :
    ∃ R, B.mapM f = some R ∧ Same R' R := by
  have hP' : ∀ b' ∈ B', P b'.elems := by
    intro b' hb'
    obtain ⟨b, hb, he⟩ := h.mem hb'
    rw [← he]; exact hP b hb
  have hQ : ∀ b ∈ B, Q b.elems := by
    intro b hb
    obtain ⟨b', hb', he⟩ := h.some' b hb
    obtain ⟨r, _, hr⟩ := (mapM_mem hR).1 b' hb'
    rw [← he]; exact (hl.st b' r (hP' b' hb') hr).2
  obtain ⟨R, hR2⟩ := mapM_isSome (f := f) (l := B) (fun b hb => by obtain ⟨r, hr, _⟩ := hl.dy b (hP b hb) (hQ b hb); exact ⟨r, hr⟩)
  refine ⟨R, hR2, ?_⟩
  unfold Same
  rw [mapM_lists (fun b hb r hr => (hl.st b r (hP' b hb) hr).1) hR, mapM_lists (F := F) _ hR2]
  · exact List.Perm.map F h
  · intro b hb r hr
    obtain ⟨r', hr', he⟩ := hl.dy b (hP b hb) (hQ b hb)
    rw [hr] at hr'; cases hr'; exact he

omit [LinearOrder V] in
theorem Like1.some' {f' f : Batch V T → Option (Batch V T)} {P Q : List (Elem (Tup V) T) → Prop} {F : List (Elem (Tup V) T) → List (Elem (Tup V) T)}
    (hl : Like1 f' f P Q F) {B' B R' : List (Batch V T)} (h : Some' B' B) (hP : ∀ b ∈ B, P b.elems) (hR : B'.mapM f' = some R') :
    ∃ R, B.mapM f = some R ∧ Some' R' R := by
  have hex : ∀ b ∈ B, ∃ r, f b = some r ∧ ∃ r' ∈ R', r'.elems = r.elems := by
    intro b hb
    obtain ⟨b', hb', he⟩ := h b hb
    obtain ⟨r', hr', hf'⟩ := (mapM_mem hR).1 b' hb'
    obtain ⟨h1, h2⟩ := hl.st b' r' (by rw [he]; exact hP b hb) hf'
    rw [he] at h1 h2
    obtain ⟨r, hr, h3⟩ := hl.dy b (hP b hb) h2
    exact ⟨r, hr, r', hr', by rw [h1, h3]⟩
  obtain ⟨R, hR2⟩ := mapM_isSome (f := f) (l := B) (fun b hb => by obtain ⟨r, hr, _⟩ := hex b hb; exact ⟨r, hr⟩)
  refine ⟨R, hR2, ?_⟩
  intro r hr
  obtain ⟨b, hb, hf⟩ := (mapM_mem hR2).2 r hr
  obtain ⟨r2, hr2, r', hr', he⟩ := hex b hb
  rw [hf] at hr2; cases hr2
  exact ⟨r', hr', he⟩

omit [LinearOrder V] in
theorem Like2.same {f' f : Batch V T → Batch V T → Option (Batch V T)} {P1 P2 : List (Elem (Tup V) T) → Prop}
    {Q : List (Elem (Tup V) T) → List (Elem (Tup V) T) → Prop} {F : List (Elem (Tup V) T) → List (Elem (Tup V) T) → List (Elem (Tup V) T)}
    (hl : Like2 f' f P1 P2 Q F) {B1' B2' B1 B2 R' : List (Batch V T)} (h1 : Same B1' B1) (h2 : Same B2' B2) (hP1 : ∀ b ∈ B1, P1 b.elems) (hP2 : ∀ b ∈ B2, P2 b.elems)
    (hR : binaryBatches f' B1' B2' = some R') : ∃ R, binaryBatches f B1 B2 = some R ∧ Same R' R := by
  have hP1' : ∀ b' ∈ B1', P1 b'.elems := by
    intro b' hb'
    obtain ⟨b, hb, he⟩ := h1.mem hb'
    rw [← he]; exact hP1 b hb
  have hP2' : ∀ b' ∈ B2', P2 b'.elems := by
    intro b' hb'
    obtain ⟨b, hb, he⟩ := h2.mem hb'
    rw [← he]; exact hP2 b hb
  have hQ : ∀ b1 ∈ B1, ∀ b2 ∈ B2, Q b1.elems b2.elems := by
    intro b1 hb1 b2 hb2
    obtain ⟨b1', hb1', he1⟩ := h1.some' b1 hb1
    obtain ⟨b2', hb2', he2⟩ := h2.some' b2 hb2
    obtain ⟨r, _, hr⟩ := binary_each hR b1' hb1' b2' hb2'
    rw [← he1, ← he2]; exact (hl.st b1' b2' r (hP1' _ hb1') (hP2' _ hb2') hr).2
  obtain ⟨R, hR2⟩ := binary_isSome (f := f) (B1 := B1) (B2 := B2) (fun b1 hb1 b2 hb2 => by
    obtain ⟨r, hr, _⟩ := hl.dy b1 b2 (hP1 b1 hb1) (hP2 b2 hb2) (hQ b1 hb1 b2 hb2); exact ⟨r, hr⟩)
  refine ⟨R, hR2, ?_⟩
  unfold Same
  rw [binary_lists (fun b1 hb1 b2 hb2 r hr => (hl.st b1 b2 r (hP1' b1 hb1) (hP2' b2 hb2) hr).1) hR, binary_lists (F := F) _ hR2]
  · exact List.Perm.flatMap h1 (fun a _ => h2.map (F a))
  · intro b1 hb1 b2 hb2 r hr
    obtain ⟨r', hr', he⟩ := hl.dy b1 b2 (hP1 b1 hb1) (hP2 b2 hb2) (hQ b1 hb1 b2 hb2)
    rw [hr] at hr'; cases hr'; exact he

omit [LinearOrder V] in
theorem Like2.some' {f' f : Batch V T → Batch V T → Option (Batch V T)} {P1 P2 : List (Elem (Tup V) T) → Prop}
    {Q : List (Elem (Tup V) T) → List (Elem (Tup V) T) → Prop} {F : List (Elem (Tup V) T) → List (Elem (Tup V) T) → List (Elem (Tup V) T)}
    (hl : Like2 f' f P1 P2 Q F) {B1' B2' B1 B2 R' : List (Batch V T)} (h1 : Some' B1' B1) (h2 : Some' B2' B2) (hP1 : ∀ b ∈ B1, P1 b.elems) (hP2 : ∀ b ∈ B2, P2 b.elems)
    (hR : binaryBatches f' B1' B2' = some R') : ∃ R, binaryBatches f B1 B2 = some R ∧ Some' R' R := by
  have hex : ∀ b1 ∈ B1, ∀ b2 ∈ B2, ∃ r, f b1 b2 = some r ∧ ∃ r' ∈ R', r'.elems = r.elems := by
    intro b1 hb1 b2 hb2
    obtain ⟨b1', hb1', he1⟩ := h1 b1 hb1
    obtain ⟨b2', hb2', he2⟩ := h2 b2 hb2
    obtain ⟨r', hr', hf'⟩ := binary_each hR b1' hb1' b2' hb2'
    obtain ⟨g1, g2⟩ := hl.st b1' b2' r' (by rw [he1]; exact hP1 b1 hb1) (by rw [he2]; exact hP2 b2 hb2) hf'
    rw [he1, he2] at g1 g2
    obtain ⟨r, hr, h3⟩ := hl.dy b1 b2 (hP1 b1 hb1) (hP2 b2 hb2) g2
    exact ⟨r, hr, r', hr', by rw [g1, h3]⟩
  obtain ⟨R, hR2⟩ := binary_isSome (f := f) (B1 := B1) (B2 := B2) (fun b1 hb1 b2 hb2 => by obtain ⟨r, hr, _⟩ := hex b1 hb1 b2 hb2; exact ⟨r, hr⟩)
  refine ⟨R, hR2, ?_⟩
  intro r hr
  obtain ⟨b1, hb1, b2, hb2, hf⟩ := binaryBatches_mem hR2 r hr
  obtain ⟨r2, hr2, r', hr', he⟩ := hex b1 hb1 b2 hb2
  rw [hf] at hr2; cases hr2
  exact ⟨r', hr', he⟩

/-! The operators. -/

theorem like_total1 (f : Batch V T → Batch V T) (F : List (Elem (Tup V) T) → List (Elem (Tup V) T)) (h : ∀ b, (f b).elems = F b.elems) :
    Like1 (fun b => some (f b)) (fun b => some (f b)) (fun _ => True) (fun _ => True) F :=
  ⟨fun b r _ hr => by cases hr; exact ⟨h b, trivial⟩, fun b _ _ => ⟨_, rfl, h b⟩⟩

theorem like_project (f : Tup V → Option (Tup V)) : Like1 (projectBatch f) (fun b : Batch V T => some (Scallop.projectBatch f b)) (fun _ => True) (fun _ => True)
    (fun l => l.filterMap (fun e => (f e.tuple).map (fun t => ⟨t, e.tag⟩))) :=
  ⟨fun _ _ _ hr => ⟨projectBatch_elems hr, trivial⟩, fun _ _ _ => ⟨_, rfl, rfl⟩⟩

theorem like_find (k : Tup V) : Like1 (findBatch k) (fun b : Batch V T => (Scallop.findLoop k b.elems).map (fun l => ⟨l, false⟩)) SortedLe Pairs (findSpec k) := by
  refine ⟨fun b r h hr => findBatch_elems h hr, fun b h hp => ?_⟩
  obtain ⟨l, hl⟩ := findLoop_isSome k b.elems hp.keyed
  exact ⟨⟨l, false⟩, by rw [hl]; rfl, Scallop.findLoop_spec k _ _ h hl⟩

theorem like_join (c : Prov T W) : Like2 (joinBatch c) (Scallop.joinBatch (V := V) c) SortedLe SortedLe (fun a b => Pairs a ∧ Pairs b) (joinSpec c) := by
  refine ⟨fun b1 b2 r h1 h2 hr => joinBatch_elems h1 h2 hr, fun b1 b2 h1 h2 hp => ?_⟩
  obtain ⟨l, hl⟩ := joinLoop_isSome c (b1.elems.length + b2.elems.length) b1.elems b2.elems hp.1 hp.2
  have he : Scallop.joinBatch c b1 b2 = some ⟨l, false⟩ := by unfold Scallop.joinBatch; rw [hl]; rfl
  exact ⟨_, he, Scallop.joinBatch_elems h1 h2 he⟩

theorem like_antijoin (c : Prov T W) : Like2 (antijoinBatch c) (Scallop.antijoinBatch (V := V) c) SortedLe SortedLe (fun a _ => Pairs a) (antijoinSpec c) := by
  refine ⟨fun b1 b2 r h1 h2 hr => antijoinBatch_elems h1 h2 hr, fun b1 b2 h1 h2 hp => ?_⟩
  obtain ⟨l, hl⟩ := antijoinLoop_isSome c b2.gallop (b1.elems.length + b2.elems.length) b1.elems b2.elems hp.keyed
  have he : Scallop.antijoinBatch c b1 b2 = some ⟨l, false⟩ := by unfold Scallop.antijoinBatch; rw [hl]; rfl
  exact ⟨_, he, Scallop.antijoinBatch_elems h1 h2 he⟩

theorem like_intersect (c : Prov T W) : Like2 (fun a b => some (intersectBatch c a b)) (fun a b => some (intersectBatch (V := V) c a b)) Sorted Sorted (fun _ _ => True)
    (intersectSpec c) :=
  ⟨fun b1 b2 r h1 h2 hr => by cases hr; exact ⟨intersectBatch_elems c h1 h2, trivial⟩, fun b1 b2 h1 h2 _ => ⟨_, rfl, intersectBatch_elems c h1 h2⟩⟩

theorem like_product (c : Prov T W) : Like2 (fun a b => some (productBatch c a b)) (fun a b => some (productBatch (V := V) c a b)) (fun _ => True) (fun _ => True)
    (fun _ _ => True) (productSpec c) :=
  ⟨fun b1 b2 r _ _ hr => by cases hr; exact ⟨productBatch_elems c b1 b2, trivial⟩, fun b1 b2 _ _ _ => ⟨_, rfl, productBatch_elems c b1 b2⟩⟩

theorem like_difference (c : Prov T W) : Like2 (fun a b => some (differenceBatch c a b)) (fun a b => some (differenceBatch (V := V) c a b)) Sorted SortedLe
    (fun _ _ => True) (differenceSpec c) :=
  ⟨fun b1 b2 r h1 h2 hr => by cases hr; exact ⟨differenceBatch_elems c h1 h2, trivial⟩, fun b1 b2 h1 h2 _ => ⟨_, rfl, differenceBatch_elems c h1 h2⟩⟩

/-! The same for dataflows. -/

/-- Where the compiled program does not panic, the interpreter does not, and the batches are the same. -/
def OSame (o' o : Option (List (Batch V T))) : Prop := ∀ B', o' = some B' → ∃ B, o = some B ∧ Same B' B

/-- Where the compiled program does not panic, the interpreter does not, and its batches are among those of the compiled program. -/
def OSome (o' o : Option (List (Batch V T))) : Prop := ∀ B', o' = some B' → ∃ B, o = some B ∧ Some' B' B

/-- All batches satisfy `P`. -/
def OAll (P : List (Elem (Tup V) T) → Prop) (o : Option (List (Batch V T))) : Prop := ∀ B, o = some B → ∀ b ∈ B, P b.elems

omit [LinearOrder V] in
theorem oall_true (o : Option (List (Batch V T))) : OAll (fun _ => True) o := fun _ _ _ _ => trivial

omit [LinearOrder V] in
theorem mapM_total {β : Type*} (f : β → β) (B : List β) : B.mapM (fun b => some (f b)) = some (B.map f) := by
  induction B with
  | nil => rfl
  | cons a B ih => rw [List.mapM_cons, ih]; rfl

omit [LinearOrder V] in
theorem map_eq_bind {β : Type*} (f : β → β) (o : Option (List β)) : o.map (List.map f) = o.bind (List.mapM (fun b => some (f b))) := by
  cases o with
  | none => rfl
  | some B => simp only [Option.map_some, Option.bind_some]; exact (mapM_total f B).symm

omit [LinearOrder V] in
theorem Like1.oSame {f' f : Batch V T → Option (Batch V T)} {P Q : List (Elem (Tup V) T) → Prop} {F : List (Elem (Tup V) T) → List (Elem (Tup V) T)}
    (hl : Like1 f' f P Q F) {o' o : Option (List (Batch V T))} (h : OSame o' o) (hP : OAll P o) : OSame (o'.bind (List.mapM f')) (o.bind (List.mapM f)) := by
  intro R' hR
  obtain ⟨B', hB', hR⟩ := Option.bind_eq_some_iff.mp hR
  obtain ⟨B, rfl, hs⟩ := h B' hB'
  obtain ⟨R, h1, h2⟩ := hl.same hs (hP B rfl) hR
  exact ⟨R, h1, h2⟩

omit [LinearOrder V] in
theorem Like1.oSome {f' f : Batch V T → Option (Batch V T)} {P Q : List (Elem (Tup V) T) → Prop} {F : List (Elem (Tup V) T) → List (Elem (Tup V) T)}
    (hl : Like1 f' f P Q F) {o' o : Option (List (Batch V T))} (h : OSome o' o) (hP : OAll P o) : OSome (o'.bind (List.mapM f')) (o.bind (List.mapM f)) := by
  intro R' hR
  obtain ⟨B', hB', hR⟩ := Option.bind_eq_some_iff.mp hR
  obtain ⟨B, rfl, hs⟩ := h B' hB'
  obtain ⟨R, h1, h2⟩ := hl.some' hs (hP B rfl) hR
  exact ⟨R, h1, h2⟩

omit [LinearOrder V] in
theorem Like2.oSame {f' f : Batch V T → Batch V T → Option (Batch V T)} {P1 P2 : List (Elem (Tup V) T) → Prop}
    {Q : List (Elem (Tup V) T) → List (Elem (Tup V) T) → Prop} {F : List (Elem (Tup V) T) → List (Elem (Tup V) T) → List (Elem (Tup V) T)}
    (hl : Like2 f' f P1 P2 Q F) {o1' o1 o2' o2 : Option (List (Batch V T))} (h1 : OSame o1' o1) (h2 : OSame o2' o2) (hP1 : OAll P1 o1) (hP2 : OAll P2 o2) :
    OSame (do binaryBatches f' (← o1') (← o2')) (do binaryBatches f (← o1) (← o2)) := by
  intro R' hR
  simp only [Option.bind_eq_bind, Option.bind_eq_some_iff] at hR
  obtain ⟨B1', hB1, B2', hB2, hR⟩ := hR
  obtain ⟨B1, rfl, s1⟩ := h1 B1' hB1
  obtain ⟨B2, rfl, s2⟩ := h2 B2' hB2
  exact hl.same s1 s2 (hP1 B1 rfl) (hP2 B2 rfl) hR

omit [LinearOrder V] in
theorem Like2.oSome {f' f : Batch V T → Batch V T → Option (Batch V T)} {P1 P2 : List (Elem (Tup V) T) → Prop}
    {Q : List (Elem (Tup V) T) → List (Elem (Tup V) T) → Prop} {F : List (Elem (Tup V) T) → List (Elem (Tup V) T) → List (Elem (Tup V) T)}
    (hl : Like2 f' f P1 P2 Q F) {o1' o1 o2' o2 : Option (List (Batch V T))} (h1 : OSome o1' o1) (h2 : OSome o2' o2) (hP1 : OAll P1 o1) (hP2 : OAll P2 o2) :
    OSome (do binaryBatches f' (← o1') (← o2')) (do binaryBatches f (← o1) (← o2)) := by
  intro R' hR
  simp only [Option.bind_eq_bind, Option.bind_eq_some_iff] at hR
  obtain ⟨B1', hB1, B2', hB2, hR⟩ := hR
  obtain ⟨B1, rfl, s1⟩ := h1 B1' hB1
  obtain ⟨B2, rfl, s2⟩ := h2 B2' hB2
  exact hl.some' s1 s2 (hP1 B1 rfl) (hP2 B2 rfl) hR

omit [LinearOrder V] in
theorem statics_recentBinary_some {f : Batch V T → Batch V T → Option (Batch V T)} {s1 r1 s2 r2 : Option (List (Batch V T))}
    {R : List (Batch V T)} (h : recentBinary f s1 r1 s2 r2 = some R) :
    ∃ S1 R1 S2 R2 a b d, s1 = some S1 ∧ r1 = some R1 ∧ s2 = some S2 ∧ r2 = some R2 ∧ binaryBatches f S1 R2 = some a ∧
      binaryBatches f R1 S2 = some b ∧ binaryBatches f R1 R2 = some d ∧ R = b ++ a ++ d := by
  unfold recentBinary at h
  simp only [Option.bind_eq_bind, Option.bind_eq_some_iff] at h
  obtain ⟨R1, h1, S2, h2, b, hb, S1, h3, R2, h4, a, ha, R1', h5, R2', h6, d, hd, h⟩ := h
  rw [h1] at h5; rw [h4] at h6; cases h5; cases h6
  exact ⟨S1, R1, S2, R2, a, b, d, h3, h1, h2, h4, ha, hb, hd, (Option.some.inj h).symm⟩

omit [LinearOrder V] in
theorem recentBinary_of {f : Batch V T → Batch V T → Option (Batch V T)} {S1 R1 S2 R2 a b d : List (Batch V T)}
    (h1 : binaryBatches f S1 R2 = some a) (h2 : binaryBatches f R1 S2 = some b) (h3 : binaryBatches f R1 R2 = some d) :
    Scallop.recentBinary f (some S1) (some R1) (some S2) (some R2) = some (a ++ b ++ d) := by
  unfold Scallop.recentBinary
  simp [h1, h2, h3]

omit [LinearOrder V] in
theorem same_three {a' b' d' a b d : List (Batch V T)} (ha : Same a' a) (hb : Same b' b) (hd : Same d' d) : Same (b' ++ a' ++ d') (a ++ b ++ d) := by
  unfold Same at *
  simp only [List.map_append]
  exact List.Perm.append ((List.perm_append_comm).trans (List.Perm.append ha hb)) hd

omit [LinearOrder V] in
theorem Like2.recents {f' f : Batch V T → Batch V T → Option (Batch V T)} {P1 P2 : List (Elem (Tup V) T) → Prop}
    {Q : List (Elem (Tup V) T) → List (Elem (Tup V) T) → Prop} {F : List (Elem (Tup V) T) → List (Elem (Tup V) T) → List (Elem (Tup V) T)}
    (hl : Like2 f' f P1 P2 Q F) {s1' r1' s2' r2' s1 r1 s2 r2 : Option (List (Batch V T))} (h1 : OSame s1' s1) (h2 : OSame r1' r1) (h3 : OSame s2' s2) (h4 : OSame r2' r2)
    (p1 : OAll P1 s1) (p2 : OAll P1 r1) (p3 : OAll P2 s2) (p4 : OAll P2 r2) : OSame (recentBinary f' s1' r1' s2' r2') (Scallop.recentBinary f s1 r1 s2 r2) := by
  intro R' hR
  obtain ⟨S1', R1', S2', R2', a', b', d', e1, e2, e3, e4, ha, hb, hd, rfl⟩ := statics_recentBinary_some hR
  obtain ⟨S1, rfl, g1⟩ := h1 _ e1
  obtain ⟨R1, rfl, g2⟩ := h2 _ e2
  obtain ⟨S2, rfl, g3⟩ := h3 _ e3
  obtain ⟨R2, rfl, g4⟩ := h4 _ e4
  obtain ⟨a, ha2, sa⟩ := hl.same g1 g4 (p1 _ rfl) (p4 _ rfl) ha
  obtain ⟨b, hb2, sb⟩ := hl.same g2 g3 (p2 _ rfl) (p3 _ rfl) hb
  obtain ⟨d, hd2, sd⟩ := hl.same g2 g4 (p2 _ rfl) (p4 _ rfl) hd
  exact ⟨_, recentBinary_of ha2 hb2 hd2, same_three sa sb sd⟩

omit [LinearOrder V] in
theorem binary_nil_right {f : Batch V T → Batch V T → Option (Batch V T)} (B : List (Batch V T)) : binaryBatches f B [] = some [] := by
  unfold binaryBatches
  have : B.mapM (fun b1 => ([] : List (Batch V T)).mapM (f b1)) = some (B.map (fun _ => [])) := by
    induction B with
    | nil => rfl
    | cons a B ih => rw [List.mapM_cons, ih]; rfl
  rw [this]
  simp only [Option.map_some, Option.some.injEq]
  induction B with
  | nil => rfl
  | cons a B ih => rw [List.map_cons, List.flatten_cons, List.nil_append]; exact ih (by rw [List.mapM_cons] at this; exact mapM_map_nil B)
where
  mapM_map_nil (B : List (Batch V T)) : B.mapM (fun b1 => ([] : List (Batch V T)).mapM (f b1)) = some (B.map (fun _ => [])) := by
    induction B with
    | nil => rfl
    | cons a B ih => rw [List.mapM_cons, ih]; rfl

/-- In the first iteration there is nothing stable. -/
theorem stable_first (c : Prov T W) {env : Env V T ι κ} (hw : env.Wf) (hf : env.first = true) : ∀ (d : DF V ι κ) (S : List (Batch V T)),
    stable c env d = some S → S = [] := by
  intro d
  induction d with
  | unit t => intro S h; simpa [stable, hf] using h.symm
  | rel i => intro S h; simpa [stable, hw.first hf i] using h.symm
  | input j => intro S h; simpa [stable, hf] using h.symm
  | filter d p ih | sorted d ih =>
    intro S h
    simp only [stable, Option.map_eq_some_iff] at h
    obtain ⟨B, hB, rfl⟩ := h
    rw [ih B hB]; rfl
  | find d k ih | project d k ih =>
    intro S h
    simp only [stable, Option.bind_eq_some_iff] at h
    obtain ⟨B, hB, h⟩ := h
    rw [ih B hB] at h
    simpa using h.symm
  | union d1 d2 ih1 ih2 =>
    intro S h
    simp only [stable, Option.bind_eq_bind, Option.bind_eq_some_iff, Option.some.injEq] at h
    obtain ⟨B1, h1, B2, h2, rfl⟩ := h
    rw [ih1 B1 h1, ih2 B2 h2]; rfl
  | intersect d1 d2 ih1 ih2 | join d1 d2 ih1 ih2 | product d1 d2 ih1 ih2 | antijoin d1 d2 ih1 ih2 =>
    intro S h
    simp only [stable, Option.bind_eq_bind, Option.bind_eq_some_iff] at h
    obtain ⟨B1, h1, B2, h2, h⟩ := h
    rw [ih1 B1 h1] at h
    simpa [binaryBatches] using h.symm
  | difference d1 d2 => intro S h; simpa [stable] using h.symm
  | _ => intro S h; simp [stable] at h

/-- After the first iteration nothing is recent in a part that only reads inputs. -/
theorem static_recent (c : Prov T W) {env : Env V T ι κ} (hf : env.first = false) : ∀ (d : DF V ι κ), d.static → ∀ R,
    (recent c env d = some R → R = []) ∧ (d.recent c env = some R → R = []) := by
  intro d
  induction d with
  | input j => intro _ R; exact ⟨fun h => by simpa [recent, hf] using h.symm, fun h => by simpa [DF.recent, hf] using h.symm⟩
  | overwriteOne d ih =>
    intro hs R
    refine ⟨fun h => by simp [recent] at h, fun h => ?_⟩
    simp only [DF.recent, Option.map_eq_some_iff] at h
    obtain ⟨B, hB, rfl⟩ := h
    rw [(ih hs B).2 hB]; rfl
  | filter d p ih =>
    intro hs R
    constructor
    · intro h
      simp only [recent, Option.map_eq_some_iff] at h
      obtain ⟨B, hB, rfl⟩ := h
      rw [(ih hs B).1 hB]; rfl
    · intro h
      simp only [DF.recent, Option.map_eq_some_iff] at h
      obtain ⟨B, hB, rfl⟩ := h
      rw [(ih hs B).2 hB]; rfl
  | find d k ih =>
    intro hs R
    constructor
    · intro h
      simp only [recent, Option.bind_eq_some_iff] at h
      obtain ⟨B, hB, h⟩ := h
      rw [(ih hs B).1 hB] at h
      simpa using h.symm
    · intro h
      simp only [DF.recent, Option.bind_eq_some_iff] at h
      obtain ⟨B, hB, h⟩ := h
      rw [(ih hs B).2 hB] at h
      simpa using h.symm
  | project d f ih =>
    intro hs R
    constructor
    · intro h
      simp only [recent, Option.bind_eq_some_iff] at h
      obtain ⟨B, hB, h⟩ := h
      rw [(ih hs B).1 hB] at h
      simpa using h.symm
    · intro h
      simp only [DF.recent, Option.map_eq_some_iff] at h
      obtain ⟨B, hB, rfl⟩ := h
      rw [(ih hs B).2 hB]; rfl
  | _ => intro hs; exact absurd hs (by simp [DF.static])

theorem static_positive : ∀ (d : DF V ι κ), d.static → d.positive := by
  intro d
  induction d with
  | input j => intro _; trivial
  | overwriteOne d ih => exact ih
  | filter d p ih => exact ih
  | find d k ih => exact ih
  | project d f ih => exact ih
  | _ => intro hs; exact absurd hs (by simp [DF.static])

end Scallop.Statics
