import Verif.Model.StringJoin
import Verif.Proof.Aggregate
import Mathlib.Data.List.ProdSigma
import Mathlib.Algebra.BigOperators.Ring.List

/-!
# Lemmas about `string_join`
-/

namespace Scallop.StrJoin

open Scallop.Agg

variable {V T W Ω : Type}

/-! ### Sets of facts without negation -/

theorem worldTag_all {α : Type*} (c : Prov T W) (batch : List (Elem α T)) :
    worldTag c batch (List.range batch.length) = some (batch.foldl (fun acc e => c.mult acc e.tag) c.one) := by
  unfold worldTag
  have key : ∀ (l : List (Elem α T)) (i : Nat) (s : List Nat) (a : T), (∀ j < l.length, i + j ∈ s) →
      (l.zipIdx i).foldl (worldStep c s) (some a) = some (l.foldl (fun acc e => c.mult acc e.tag) a) := by
    intro l
    induction l with
    | nil => intro i s a _; rfl
    | cons e l ih =>
      intro i s a hs
      have h0 : i ∈ s := hs 0 (by simp)
      rw [List.zipIdx_cons, List.foldl_cons, List.foldl_cons]
      have : worldStep c s (some a) (e, i) = some (c.mult a e.tag) := by simp [worldStep, h0]
      rw [this]
      exact ih (i + 1) s _ (fun j hj => by have := hs (j + 1) (by simpa using hj); rwa [Nat.add_right_comm, Nat.add_assoc])
  exact key batch 0 _ _ (by simp)

theorem worldTag_some_all {α : Type*} {c : Prov T W} (hneg : ∀ t, c.negate t = none) (batch : List (Elem α T)) (s : List Nat)
    (hs : s ∈ powerset batch.length) (t : T) (h : worldTag c batch s = some t) : s = List.range batch.length := by
  have key : ∀ (l : List (Elem α T)) (i : Nat) (a : T), (l.zipIdx i).foldl (worldStep c s) (some a) = some t → ∀ j < l.length, i + j ∈ s := by
    intro l
    induction l with
    | nil => intro i a _ j hj; simp at hj
    | cons e l ih =>
      intro i a hf j hj
      rw [List.zipIdx_cons, List.foldl_cons] at hf
      by_cases hi : i ∈ s
      · have h1 : worldStep c s (some a) (e, i) = some (c.mult a e.tag) := by simp [worldStep, hi]
        rw [h1] at hf
        cases j with
        | zero => simpa using hi
        | succ j => have := ih _ _ hf j (by simpa using hj); rwa [Nat.add_right_comm, Nat.add_assoc] at this
      · have h1 : worldStep c s (some a) (e, i) = none := by simp [worldStep, hi, hneg]
        rw [h1, worldStep_none] at hf
        cases hf
  have hall := key batch 0 c.one h
  have hsub := mem_powerset.1 hs
  refine hsub.eq_of_length_le ?_
  have : (List.range batch.length).Subperm s := List.subperm_of_subset List.nodup_range (fun j hj => by simpa using hall j (by simpa using hj))
  simpa using this.length_le

theorem chosen_all {α : Type*} (batch : List (Elem α T)) : chosenTuples batch (List.range batch.length) = some (batch.map Elem.tuple) := by
  unfold chosenTuples
  have h : (List.range batch.length).map (fun i => (batch[i]?).map Elem.tuple) = (batch.map Elem.tuple).map some := by
    apply List.ext_getElem
    · simp
    · intro k h1 h2; simp only [List.length_map] at h2; simp [h2]
  have key : ∀ (l : List Nat) (r : List α), l.map (fun i => (batch[i]?).map Elem.tuple) = r.map some → l.mapM (fun i => (batch[i]?).map Elem.tuple) = some r := by
    intro l
    induction l with
    | nil => intro r hr; cases r with | nil => rfl | cons _ _ => simp at hr
    | cons a l ih =>
      intro r hr
      cases r with
      | nil => simp at hr
      | cons b r =>
        rw [List.map_cons, List.map_cons, List.cons.injEq] at hr
        rw [List.mapM_cons, hr.1, ih r hr.2]
        rfl
  exact key _ _ h

theorem multiWorld_no_negation {α β : Type*} {c : Prov T W} (hneg : ∀ t, c.negate t = none) (f : List α → Option β) (batch : List (Elem α T))
    (hf : ∀ ts, ts.Sublist (batch.map Elem.tuple) → ∃ v, f ts = some v) :
    multiWorld c f batch = (f (batch.map Elem.tuple)).map (fun v => [⟨v, batch.foldl (fun acc e => c.mult acc e.tag) c.one⟩]) := by
  obtain ⟨res, hres⟩ := multiWorld_some (c := c) hf
  obtain ⟨hr, -⟩ := multiWorld_eq hres
  rw [hres, hr]
  obtain ⟨v, hv⟩ := hf _ (List.Sublist.refl _)
  rw [hv, Option.map_some, Option.some.injEq]
  have hall : ∀ s ∈ powerset batch.length, s ≠ List.range batch.length → (worldResult c f batch s).join = none := by
    intro s hs hne
    have : worldTag c batch s = none := by
      cases h : worldTag c batch s with
      | none => rfl
      | some t => exact absurd (worldTag_some_all hneg batch s hs t h) hne
    unfold worldResult
    rw [this]
    cases (chosenTuples batch s).bind f <;> rfl
  have hone : (worldResult c f batch (List.range batch.length)).join = some ⟨v, batch.foldl (fun acc e => c.mult acc e.tag) c.one⟩ := by
    unfold worldResult
    rw [chosen_all, Option.bind_some, hv, worldTag_all]
    rfl
  have hmem : List.range batch.length ∈ powerset batch.length := mem_powerset.2 (List.Sublist.refl _)
  obtain ⟨l1, l2, hl⟩ := List.append_of_mem hmem
  have hnd := powerset_nodup batch.length
  rw [hl, List.nodup_append, List.nodup_cons] at hnd
  rw [hl] at hall ⊢
  rw [List.filterMap_append, List.filterMap_cons, hone]
  have h1 : l1.filterMap (fun s => (worldResult c f batch s).join) = [] := by
    rw [List.filterMap_eq_nil_iff]
    intro s hs
    exact hall s (by simp [hs]) (fun he => hnd.2.2 s hs s (by simp [he]) rfl)
  have h2 : l2.filterMap (fun s => (worldResult c f batch s).join) = [] := by
    rw [List.filterMap_eq_nil_iff]
    intro s hs
    exact hall s (by simp [hs]) (fun he => hnd.2.1.1 (he ▸ hs))
  rw [h1, h2]
  rfl

/-! ### Vectors of indices -/

/-- Every vector of the list is followed by its successor, the last one by `o`. -/
def Seg (total : List Nat) : List (List Nat) → Option (List Nat) → Prop
  | [], _ => False
  | [x], o => bump total x = o
  | x :: y :: l, o => bump total x = some y ∧ Seg total (y :: l) o

theorem seg_append {total : List Nat} {l : List (List Nat)} {y : List Nat} {m : List (List Nat)} {o : Option (List Nat)}
    (h1 : Seg total l (some y)) (h2 : Seg total (y :: m) o) : Seg total (l ++ y :: m) o := by
  induction l with
  | nil => exact h1.elim
  | cons x l ih =>
    cases l with
    | nil => exact ⟨h1, h2⟩
    | cons z l => exact ⟨h1.1, ih h1.2⟩

theorem collect_seg {total : List Nat} {x : List Nat} {l : List (List Nat)} (h : Seg total (x :: l) none) : collectFrom total (l.length + 1) x = x :: l := by
  induction l generalizing x with
  | nil => have h' : bump total x = none := h; simp [collectFrom, h']
  | cons y l ih => rw [List.length_cons, collectFrom, h.1]; simp only; rw [ih h.2]

theorem seg_block (t : Nat) (ts s : List Nat) (m i : Nat) (hm : 0 < m) (hi : i + m = t) :
    Seg (t :: ts) ((List.range' i m).map (fun j => j :: s)) ((bump ts s).map (fun r => 0 :: r)) := by
  induction m generalizing i with
  | zero => omega
  | succ m ih =>
    cases m with
    | zero =>
      have : ¬ i + 1 < t := by omega
      simp [Seg, bump, this]
    | succ m =>
      have : i + 1 < t := by omega
      refine ⟨by simp [bump, this], ?_⟩
      simpa [List.range'_succ] using ih (i + 1) (by omega) (by omega)

theorem seg_flat (t : Nat) (ht : 0 < t) (ts : List Nat) (l : List (List Nat)) (h : Seg ts l none) :
    Seg (t :: ts) (l.flatMap (fun s => (List.range t).map (fun j => j :: s))) none := by
  induction l with
  | nil => exact h.elim
  | cons x l ih =>
    have hb := seg_block t ts x t 0 ht (by omega)
    rw [← List.range_eq_range'] at hb
    cases l with
    | nil =>
      have hx : bump ts x = none := h
      rw [hx] at hb
      simpa using hb
    | cons y l =>
      have hx : bump ts x = some y := h.1
      rw [hx] at hb
      have := ih h.2
      obtain ⟨t', rfl⟩ : ∃ t', t = t' + 1 := ⟨t - 1, by omega⟩
      have hr : List.range (t' + 1) = 0 :: (List.range t').map Nat.succ := List.range_succ_eq_map
      rw [List.flatMap_cons]
      have he : ((y :: l).flatMap (fun s => (List.range (t' + 1)).map (fun j => j :: s))) =
          (0 :: y) :: (((List.range t').map Nat.succ).map (fun j => j :: y) ++ l.flatMap (fun s => (List.range (t' + 1)).map (fun j => j :: s))) := by
        rw [List.flatMap_cons, hr]; rfl
      rw [he] at this ⊢
      exact seg_append hb this

theorem sections_range_head (sizes : List Nat) (h : ∀ s ∈ sizes, 0 < s) :
    ∃ l, (sizes.map List.range).sections = List.replicate sizes.length 0 :: l := by
  induction sizes with
  | nil => exact ⟨[], rfl⟩
  | cons t ts ih =>
    obtain ⟨l, hl⟩ := ih (fun s hs => h s (by simp [hs]))
    obtain ⟨t', rfl⟩ : ∃ t', t = t' + 1 := ⟨t - 1, by have := h t (by simp); omega⟩
    refine ⟨((List.range t').map Nat.succ).map (fun j => j :: List.replicate ts.length 0) ++ l.flatMap (fun s => (List.range (t' + 1)).map (fun j => j :: s)), ?_⟩
    rw [List.map_cons, List.sections, hl, List.flatMap_cons]
    conv_lhs => rw [List.range_succ_eq_map]
    rw [List.range_succ_eq_map]
    rfl

theorem seg_sections (sizes : List Nat) (h : ∀ s ∈ sizes, 0 < s) : Seg sizes (sizes.map List.range).sections none := by
  induction sizes with
  | nil => rfl
  | cons t ts ih => exact seg_flat t (h t (by simp)) ts _ (ih (fun s hs => h s (by simp [hs])))

theorem sections_length (l : List (List α)) : l.sections.length = (l.map List.length).prod := by
  induction l with
  | nil => rfl
  | cons x l ih => simp [List.sections, List.length_flatMap, ih, Nat.mul_comm]

theorem cartesian_eq (sizes : List Nat) : cartesian sizes = (sizes.map List.range).sections := by
  unfold cartesian
  split
  · rename_i h
    have h' : ∀ s ∈ sizes, 0 < s := by simpa using h
    obtain ⟨l, hl⟩ := sections_range_head sizes h'
    have hs := seg_sections sizes h'
    have hlen := sections_length (sizes.map List.range)
    have : ((sizes.map List.range).map List.length) = sizes := by simp [Function.comp_def]
    rw [this, hl, List.length_cons] at hlen
    rw [hl] at hs ⊢
    rw [← hlen]
    exact collect_seg hs
  · rename_i h
    have h0 : (sizes.map List.range).sections.length = 0 := by
      rw [sections_length]
      have : ((sizes.map List.range).map List.length) = sizes := by simp [Function.comp_def]
      rw [this]
      apply List.prod_eq_zero
      simp only [List.all_eq_true, decide_eq_true_eq, not_forall] at h
      obtain ⟨x, hx, hn⟩ := h
      have : x = 0 := by omega
      exact this ▸ hx
    exact (List.length_eq_zero_iff.1 h0).symm

/-! ### Sections -/

theorem sections_map {α β : Type*} (f : α → β) (l : List (List α)) : (l.map (List.map f)).sections = l.sections.map (List.map f) := by
  induction l with
  | nil => rfl
  | cons x l ih => simp [List.sections, ih, List.flatMap_map, List.map_flatMap, Function.comp_def]

theorem sections_filter {α : Type*} (p : α → Bool) (l : List (List α)) : l.sections.filter (fun s => s.all p) = (l.map (List.filter p)).sections := by
  induction l with
  | nil => rfl
  | cons x l ih =>
    simp only [List.sections, List.map_cons, ← ih]
    generalize l.sections = m
    induction m with
    | nil => rfl
    | cons s m ihm =>
      rw [List.flatMap_cons, List.filter_append, ihm, List.filter_cons]
      by_cases hs : s.all p = true
      · rw [if_pos hs, List.flatMap_cons]
        congr 1
        rw [List.filter_map]
        congr 1
        apply List.filter_congr
        intro a _
        simp [hs]
      · rw [if_neg hs]
        have : (x.map (fun a => a :: s)).filter (fun s => s.all p) = [] := by
          rw [List.filter_eq_nil_iff]
          intro b hb
          obtain ⟨a, _, rfl⟩ := List.mem_map.1 hb
          simp only [List.all_cons, Bool.and_eq_true, not_and]
          exact fun _ => hs
        rw [this, List.nil_append]

/-! ### Groups -/

/-- The facts of a group, as the compiler lays them out: arguments, then the string. -/
def factTuple (inj : String → V) (args : List (Tup V)) (e : Elem String T) : Elem (Tup V) T := ⟨.tup (args ++ [.val (inj e.tuple)]), e.tag⟩

/-- A group as the program holds it. -/
def groupOf (inj : String → V) (g : List (Tup V) × List (Elem String T)) : List (Tup V) × List (Tup V × T) :=
  (g.1, g.2.map (fun e => (.val (inj e.tuple), e.tag)))

variable [DecidableEq (Tup V)] {n : Nat} {inj : String → V}

/-- The groups after one more fact. -/
def pushed (args : List (Tup V)) (p : Tup V × T) : List (List (Tup V) × List (Tup V × T)) → List (List (Tup V) × List (Tup V × T))
  | [] => [(args, [p])]
  | (prev, vs) :: rest => if prev = args then (prev, vs ++ [p]) :: rest else (args, [p]) :: (prev, vs) :: rest

theorem push_fact {args : List (Tup V)} (ha : args.length = n) (gs : List (List (Tup V) × List (Tup V × T))) (e : Elem String T) :
    pushGroup n gs (factTuple inj args e) = some (pushed args (.val (inj e.tuple), e.tag) gs) := by
  subst ha
  unfold pushGroup
  simp only [factTuple, argsOf, Tup.at?, List.length_append, List.length_cons, List.length_nil, Nat.zero_add, Nat.le_add_right, if_true,
    List.take_left, Option.bind_eq_bind, Option.bind_some, List.getElem?_concat_length]
  cases gs <;> rfl

theorem push_same {args : List (Tup V)} (ha : args.length = n) (es : List (Elem String T)) (vs : List (Tup V × T))
    (rest : List (List (Tup V) × List (Tup V × T))) :
    (es.map (factTuple inj args)).foldlM (pushGroup n) ((args, vs) :: rest) =
      some ((args, vs ++ es.map (fun e => (.val (inj e.tuple), e.tag))) :: rest) := by
  induction es generalizing vs with
  | nil => simp
  | cons e es ih =>
    rw [List.map_cons, List.foldlM_cons, push_fact ha]
    simp only [pushed, if_true, Option.bind_eq_bind, Option.bind_some]
    rw [ih]
    simp

theorem push_group (g : List (Tup V) × List (Elem String T)) (ha : g.1.length = n) (hne : g.2 ≠ []) (gs : List (List (Tup V) × List (Tup V × T)))
    (hd : ∀ p ∈ gs.head?, p.1 ≠ g.1) :
    (g.2.map (factTuple inj g.1)).foldlM (pushGroup n) gs = some (groupOf inj g :: gs) := by
  obtain ⟨args, es⟩ := g
  cases es with
  | nil => exact absurd rfl hne
  | cons e es =>
    rw [List.map_cons, List.foldlM_cons, push_fact ha]
    have : pushed args ((.val (inj e.tuple) : Tup V), e.tag) gs = (args, [(.val (inj e.tuple), e.tag)]) :: gs := by
      cases gs with
      | nil => rfl
      | cons p rest => obtain ⟨prev, vs⟩ := p; simp only [pushed]; rw [if_neg (hd _ rfl)]
    rw [this]
    simp only [Option.bind_eq_bind, Option.bind_some]
    rw [push_same ha]
    rfl

theorem groups_fold (groups : List (List (Tup V) × List (Elem String T))) (ha : ∀ g ∈ groups, g.1.length = n) (hne : ∀ g ∈ groups, g.2 ≠ [])
    (gs : List (List (Tup V) × List (Tup V × T))) (hd : ∀ p ∈ gs.head?, ∀ g ∈ groups.head?, p.1 ≠ g.1)
    (hc : (groups.map Prod.fst).IsChain (· ≠ ·)) :
    (groups.flatMap (fun g => g.2.map (factTuple inj g.1))).foldlM (pushGroup n) gs = some ((groups.map (groupOf inj)).reverse ++ gs) := by
  induction groups generalizing gs with
  | nil => simp
  | cons g groups ih =>
    rw [List.flatMap_cons, List.foldlM_append, push_group g (ha g (by simp)) (hne g (by simp)) gs (fun p hp => hd p hp g (by simp))]
    simp only [Option.bind_eq_bind, Option.bind_some]
    rw [ih (fun x hx => ha x (by simp [hx])) (fun x hx => hne x (by simp [hx])) _ _ (by
      cases groups with
        | nil => exact List.IsChain.nil
        | cons y groups => rw [List.map_cons, List.map_cons, List.isChain_cons_cons] at hc; exact hc.2)]
    · simp
    · intro p hp x hx
      simp only [List.head?_cons, Option.mem_some_iff] at hp
      subst hp
      cases groups with
      | nil => simp at hx
      | cons y groups =>
        simp only [List.head?_cons, Option.mem_some_iff] at hx
        subst hx
        rw [List.map_cons, List.map_cons, List.isChain_cons_cons] at hc
        exact hc.1

theorem groupsOf_eq (groups : List (List (Tup V) × List (Elem String T))) (ha : ∀ g ∈ groups, g.1.length = n) (hne : ∀ g ∈ groups, g.2 ≠ [])
    (hc : (groups.map Prod.fst).IsChain (· ≠ ·)) :
    groupsOf n (groups.flatMap (fun g => g.2.map (factTuple inj g.1))) = some (groups.map (groupOf inj)) := by
  rw [groupsOf, groups_fold groups ha hne [] (by simp) hc]
  simp

omit [DecidableEq (Tup V)] in
theorem pick_cons (g : List (Tup V) × List (Tup V × T)) (gs : List (List (Tup V) × List (Tup V × T))) (j : Nat) (sel : List Nat) :
    pick (g :: gs) (j :: sel) = (g.2[j]?).bind (fun x => (pick gs sel).map (fun xs => x :: xs)) := by
  unfold pick
  rw [List.zipIdx_cons, List.mapM_cons]
  have : (sel.zipIdx (0 + 1)).mapM (m := Option) (fun p => ((g :: gs)[p.2]?).bind (fun g => g.2[p.1]?)) =
      sel.zipIdx.mapM (m := Option) (fun p => (gs[p.2]?).bind (fun g => g.2[p.1]?)) := by
    rw [List.zipIdx_succ, List.mapM_map]
    rfl
  rw [this]
  simp only [List.getElem?_cons_zero, Option.bind_some, Option.bind_eq_bind, Option.pure_def]
  cases g.2[j]? with
  | none => rfl
  | some x =>
    simp only [Option.bind_some]
    generalize List.mapM (m := Option) (fun p => (gs[p.2]?).bind (fun g => g.2[p.1]?)) sel.zipIdx = o
    cases o <;> rfl

omit [DecidableEq (Tup V)] in
theorem pick_sections (gs : List (List (Tup V) × List (Tup V × T))) :
    ((gs.map (fun g => g.2.length)).map List.range).sections.map (pick gs) = (gs.map Prod.snd).sections.map some := by
  induction gs with
  | nil => rfl
  | cons g gs ih =>
    simp only [List.map_cons, List.sections, List.map_flatMap, List.map_map]
    have h1 : ∀ s, (List.range g.2.length).map (pick (g :: gs) ∘ fun j => j :: s) =
        (pick gs s).elim ((List.range g.2.length).map (fun _ => none)) (fun xs => g.2.map (fun x => some (x :: xs))) := by
      intro s
      cases hp : pick gs s with
      | none =>
        simp only [Option.elim_none]
        apply List.map_congr_left
        intro j _
        simp only [Function.comp_apply, pick_cons, hp, Option.map_none]
        cases g.2[j]? <;> rfl
      | some xs =>
        simp only [Option.elim_some]
        apply List.ext_getElem
        · simp
        · intro k h1 h2
          simp only [List.length_map] at h2
          simp [pick_cons, hp, h2]
    simp only [h1]
    have key : ∀ (m : List (List Nat)) (r : List (List (Tup V × T))), m.map (pick gs) = r.map some →
        m.flatMap (fun s => (pick gs s).elim ((List.range g.2.length).map (fun _ => none)) (fun xs => g.2.map (fun x => some (x :: xs)))) =
          r.flatMap (fun xs => g.2.map (fun x => some (x :: xs))) := by
      intro m
      induction m with
      | nil => intro r hr; cases r with | nil => rfl | cons _ _ => simp at hr
      | cons s m ihm =>
        intro r hr
        cases r with
        | nil => simp at hr
        | cons xs r =>
          rw [List.map_cons, List.map_cons, List.cons.injEq] at hr
          rw [List.flatMap_cons, List.flatMap_cons, ihm r hr.2, hr.1]
          rfl
    rw [List.map_map] at ih
    rw [key _ _ (by rw [List.map_map]; exact ih)]
    simp [Function.comp_def]

theorem mapM_some_map {α β : Type*} (f : α → Option β) (l : List α) (r : List β) (h : l.map f = r.map some) : l.mapM f = some r := by
  induction l generalizing r with
  | nil => cases r with | nil => rfl | cons _ _ => simp at h
  | cons a l ih =>
    cases r with
    | nil => simp at h
    | cons b r =>
      rw [List.map_cons, List.map_cons, List.cons.injEq] at h
      rw [List.mapM_cons, h.1, ih r h.2]
      rfl

omit [DecidableEq (Tup V)] in
theorem strings_of {str : V → Option String} (hstr : ∀ s, str (inj s) = some s) (es : List (Elem String T)) :
    (es.map (fun e => ((.val (inj e.tuple) : Tup V), e.tag))).mapM (fun p => asString str p.1) = some (es.map Elem.tuple) := by
  apply mapM_some_map
  simp [Function.comp_def, asString, hstr]

/-- The result of a choice of facts. -/
def joined (c : Prov T W) (sep : String) (es : List (Elem String T)) : Elem String T :=
  ⟨sep.intercalate (es.map Elem.tuple), es.foldl (fun acc e => c.mult acc e.tag) c.one⟩

theorem joinAllArgs_eq (c : Prov T W) {str : V → Option String} (hstr : ∀ s, str (inj s) = some s) (sep : String)
    (groups : List (List (Tup V) × List (Elem String T))) (ha : ∀ g ∈ groups, g.1.length = n) (hne : ∀ g ∈ groups, g.2 ≠ [])
    (hc : (groups.map Prod.fst).IsChain (· ≠ ·)) :
    joinAllArgs c str n sep (groups.flatMap (fun g => g.2.map (factTuple inj g.1))) = some ((groups.map Prod.snd).sections.map (joined c sep)) := by
  unfold joinAllArgs
  rw [groupsOf_eq groups ha hne hc]
  simp only [Option.bind_eq_bind, Option.bind_some]
  rw [cartesian_eq]
  apply mapM_some_map
  have hp := pick_sections (groups.map (groupOf (T := T) inj))
  have hs : ((groups.map (groupOf (T := T) inj)).map Prod.snd).sections =
      (groups.map Prod.snd).sections.map (List.map (fun e => ((.val (inj e.tuple) : Tup V), e.tag))) := by
    rw [← sections_map]; congr 1; simp [groupOf, Function.comp_def]
  rw [hs] at hp
  have hj : ∀ (m : List (List Nat)) (r : List (List (Elem String T))),
      m.map (pick (groups.map (groupOf inj))) = (r.map (List.map (fun e => ((.val (inj e.tuple) : Tup V), e.tag)))).map some →
      m.map (joinPick c str sep (groups.map (groupOf inj))) = (r.map (joined c sep)).map some := by
    intro m
    induction m with
    | nil => intro r hr; cases r with | nil => rfl | cons _ _ => simp at hr
    | cons s m ihm =>
      intro r hr
      cases r with
      | nil => simp at hr
      | cons xs r =>
        simp only [List.map_cons, List.cons.injEq] at hr
        simp only [List.map_cons, List.cons.injEq]
        refine ⟨?_, ihm r hr.2⟩
        unfold joinPick
        rw [hr.1]
        simp only [Option.bind_eq_bind, Option.bind_some]
        rw [strings_of hstr]
        simp only [Option.bind_some, joined, List.foldl_map]
  exact hj _ _ hp

end Scallop.StrJoin
