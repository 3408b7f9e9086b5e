import Verif.Proof.EntityMake
import Mathlib.Data.Fintype.Pigeonhole

/-!
# C92: entities are the terms they were made from

Whether an entity, taken apart with the relations of the constructors, is the term that was written; whether the same term is the same
entity and different terms are different entities; whether the store of facts loses or repeats any.
-/

namespace Scallop.Ent

open Ty

section
variable {F : Type} {C : Conv F} {reg : String → Option Variant} {h : Hash F}

/-- An entity made from a string is the term in the string: the facts that come with it show it. -/
theorem c92_string (hr : RegOk reg) {t : Term F} {v : Val F} {fs : List (Fact F)} (hp : parseTop C reg h t = .ok (v, fs)) :
    ∃ vt, t.value C (argTypes reg) (fun _ _ => none) .entity = some vt ∧ vt.shows (· ∈ fs) v :=
  parse_shows hr hp

/-- A string is accepted when it is a term of known constructors with the right number of arguments, and literals of the right types that
are not symbols. -/
theorem c92_accepts_partial (hr : RegOk reg) {t : Term F} {vt : VTerm F} (hn : t.noSymbol = true)
    (hv : t.value C (argTypes reg) (fun _ _ => none) .entity = some vt) : ∃ r, parseTop C reg h t = .ok r :=
  parse_accepts hr hn hv

/-- An entity made by `new` is the term of the expression, in every database that has the facts that come with it. -/
theorem c92_new {S : Fact F → Prop} {n : NTerm F} {t : VTerm F} (hS : ∀ a ∈ (n.eval h).2, S a) (hd : n.denotes S t) :
    t.shows S (n.eval h).1 :=
  eval_shows hS hd

/-- An entity that is a constant of the program is the term that is written, in every database that has the facts that come with it and in
which the constants declared before are what they should be. Constructors must stand where an entity is expected. -/
theorem c92_const {types : String → Option (List VTy)} {vars : String → VTy → Option (VTerm F)} {cvars : String → Option (Const F × Loc)}
    {S : Fact F → Prop}
    (hv : ∀ x ty vt, vars x ty = some vt → ∃ c l v, cvars x = some (c, l) ∧ c.toVal C.ofInt C.toF ty = some v ∧ vt.shows S v)
    {t : Term F} {c : Const F} {l : Loc} {fs : List (CFact F)} {vt : VTerm F} (hp : t.toFacts h cvars = .ok ((c, l), fs))
    (hs : t.sorted types .entity) (ht : t.value C types vars .entity = some vt) (hS : ∀ f ∈ fs, ∀ a, f.IsFact C types a → S a) :
    ∃ v, c.toVal C.ofInt C.toF .entity = some v ∧ vt.shows S v :=
  toFacts_shows hv hp hs ht hS

/-- In a run in which the hash function does not collide, no entity is two terms, in whichever ways entities are made: given that the
facts have the types of the constructors. -/
theorem c92_one_term_partial (hr : RegOk reg) (P : Sources F) (hc : NoCollision h (P.Hashed C reg h))
    (ht : ∀ a, P.Facts C reg h a → a.Typed (argTypes reg)) (hn : Named (argTypes reg) (P.Facts C reg h))
    {v : Val F} {t t' : VTerm F} (h1 : t.shows (P.Facts C reg h) v) (h2 : t'.shows (P.Facts C reg h) v) : t = t' :=
  shows_unique (coherent (sources_made hr P) hc ht hn) h1 h2

/-- Two strings are the same entity if and only if they are the same term, in a run in which the hash function does not collide. Literals
that are equal at the types of their arguments, such as `1` and `4294967297` at `i32`, are the same. -/
theorem c92_strings_partial (hr : RegOk reg) {t t' : Term F} {v v' : Val F} {fs fs' : List (Fact F)}
    (hp : parseTop C reg h t = .ok (v, fs)) (hp' : parseTop C reg h t' = .ok (v', fs'))
    (hs : t.sorted (argTypes reg) .entity) (hs' : t'.sorted (argTypes reg) .entity) (hn : ∀ f, (reg f).isSome → '#' ∉ f.toList)
    (hc : NoCollision h (Sources.Hashed C reg h ⟨[t, t'], [], []⟩)) :
    v = v' ↔ t.value C (argTypes reg) (fun _ _ => none) .entity = t'.value C (argTypes reg) (fun _ _ => none) .entity := by
  obtain ⟨vt, e1, s1⟩ := parse_shows hr hp
  obtain ⟨vt', e2, s2⟩ := parse_shows hr hp'
  rw [e1, e2, Option.some.injEq]
  constructor
  · intro e
    subst e
    have hf : ∀ a, Sources.Facts C reg h ⟨[t, t'], [], []⟩ a → a ∈ fs ∨ a ∈ fs' := by
      intro a ha
      cases ha with
      | string ht hq hm =>
        simp only [List.mem_cons, List.not_mem_nil, or_false] at ht
        rcases ht with rfl | rfl
        · rw [hp] at hq; simp only [Except.ok.injEq, Prod.mk.injEq] at hq; rw [← hq.2] at hm; exact Or.inl hm
        · rw [hp'] at hq; simp only [Except.ok.injEq, Prod.mk.injEq] at hq; rw [← hq.2] at hm; exact Or.inr hm
      | new ht _ => simp at ht
      | const ht _ _ _ => simp at ht
    refine c92_one_term_partial hr ⟨[t, t'], [], []⟩ hc (fun a ha => ?_) (fun a ha => ?_)
      (shows_mono (fun a ha => .string (by simp) hp ha) s1) (shows_mono (fun a ha => .string (by simp) hp' ha) s2)
    · exact (hf a ha).elim ((parse_typed hr hp hs).2 a) ((parse_typed hr hp' hs').2 a)
    · obtain ⟨f, vs, h1, rfl⟩ := (hf a ha).elim (parse_made hr hp a) (parse_made hr hp' a)
      exact ⟨f, rfl, hn f h1, by simpa [argTypes] using h1⟩
  · rintro rfl
    rw [parse_code hp e1, parse_code hp' e2]

/-- The facts that come with a string have the types of the constructors, when constructors stand only where an entity is expected. -/
theorem c92_string_typed_partial (hr : RegOk reg) {t : Term F} {v : Val F} {fs : List (Fact F)} (hp : parseTop C reg h t = .ok (v, fs))
    (hs : t.sorted (argTypes reg) .entity) : v.ty = .entity ∧ ∀ a ∈ fs, a.Typed (argTypes reg) :=
  ⟨(parse_typed hr hp hs).1.1, (parse_typed hr hp hs).2⟩

end

/-! ## The store -/

section
variable {F : Type} [DecidableEq F]

/-- Whatever is added to the store and taken out of it, in any order: no fact is lost or repeated. What was taken out, with what is left,
is what was there before, with what was added. -/
theorem c92_store (os : List (Op F)) (s : Store F) :
    (drained (runOps os s).1 ++ (runOps os s).2.facts.map Fact.tuple).Perm ((s.facts ++ added os).map Fact.tuple) := by
  induction os generalizing s with
  | nil => simp [runOps, added, drained]
  | cons o os ih =>
    cases o with
    | add a =>
      simp only [runOps, added]
      refine (ih (s.add a)).trans ?_
      refine List.Perm.map _ ?_
      exact ((add_perm s a).append_right _).trans (by simp)
    | drain p =>
      simp only [runOps, added]
      have e : drained ((s.drain p).1 ++ (runOps os (s.drain p).2).1) =
          drained (s.drain p).1 ++ drained (runOps os (s.drain p).2).1 := by simp [drained]
      rw [e, List.append_assoc]
      refine ((ih (s.drain p).2).append_left _).trans ?_
      rw [List.map_append, List.map_append, ← List.append_assoc]
      exact (drain_perm s p).append_right _

/-- Only the relations that are asked for are taken out, and none of them is left. -/
theorem c92_drain (s : Store F) (p : String → Bool) :
    (∀ x ∈ drained (s.drain p).1, p x.1 = true) ∧ ∀ a ∈ (s.drain p).2.facts, p a.rel = false := by
  constructor
  · intro x hx
    simp only [drained, Store.drain, List.mem_flatMap, List.mem_map, List.mem_filter] at hx
    obtain ⟨q, ⟨q', ⟨-, h2⟩, rfl⟩, y, -, rfl⟩ := hx
    exact h2
  · intro a ha
    simp only [Store.facts, Store.drain, List.mem_flatMap, List.mem_map, List.mem_filter] at ha
    obtain ⟨q, ⟨-, h2⟩, r, -, y, -, rfl⟩ := ha
    simpa using h2

/-- A string that is refused adds nothing; one that is accepted adds exactly the facts of its term. -/
theorem c92_add_string {C : Conv F} {reg : String → Option Variant} {h : Hash F} {s : Store F} {t : Term F} {v : Val F} {s' : Store F}
    (ha : s.addTerm C reg h t = .ok (v, s')) : ∃ fs, parseTop C reg h t = .ok (v, fs) ∧ s'.facts.Perm (s.facts ++ fs) := by
  unfold Store.addTerm at ha
  split at ha
  · simp at ha
  · next r hr =>
    simp only [Except.ok.injEq, Prod.mk.injEq] at ha
    obtain ⟨rfl, rfl⟩ := ha
    refine ⟨r.2, hr, ?_⟩
    have : ∀ (fs : List (Fact F)) (s : Store F), (fs.foldl Store.add s).facts.Perm (s.facts ++ fs) := by
      intro fs
      induction fs with
      | nil => intro s; simp
      | cons a as ih =>
        intro s
        simp only [List.foldl_cons]
        exact (ih _).trans (((add_perm s a).append_right _).trans (by simp))
    exact this _ _

end

/-! ## What fails -/

/-- `type List = Nil() | Cons(i32, List)`, `type Nat = Z() | S(Nat)`, `type Id = Id(Symbol)` -/
private def tReg (f : String) : Option Variant :=
  if f = "Nil" then some ⟨"adt#Nil", [.entity]⟩
  else if f = "Cons" then some ⟨"adt#Cons", [.entity, .int .i32, .entity]⟩
  else if f = "Z" then some ⟨"adt#Z", [.entity]⟩
  else if f = "S" then some ⟨"adt#S", [.entity, .entity]⟩
  else if f = "Id" then some ⟨"adt#Id", [.entity, .symbol]⟩
  else none

private theorem tReg_ok : RegOk tReg := by
  intro f v hv
  unfold tReg at hv
  split at hv
  · subst f; simp only [Option.some.injEq] at hv; subst hv; exact ⟨by decide +kernel, by simp⟩
  split at hv
  · subst f; simp only [Option.some.injEq] at hv; subst hv; exact ⟨by decide +kernel, by simp⟩
  split at hv
  · subst f; simp only [Option.some.injEq] at hv; subst hv; exact ⟨by decide +kernel, by simp⟩
  split at hv
  · subst f; simp only [Option.some.injEq] at hv; subst hv; exact ⟨by decide +kernel, by simp⟩
  split at hv
  · subst f; simp only [Option.some.injEq] at hv; subst hv; exact ⟨by decide +kernel, by simp⟩
  · simp at hv

private def noLoc : Loc := ⟨0, 0, 0⟩

private def tConv : Conv Int := ⟨fun _ n => n, fun _ x => x⟩

/-- `S(S(… Z()))` -/
private def num : Nat → Term Int
  | 0 => .obj "Z" [] noLoc
  | n + 1 => .obj "S" [num n] noLoc

private theorem num_parse (h : Hash Int) : ∀ n, ∃ v fs, (num n).parse tConv tReg h .entity = .ok (v, fs)
  | 0 => ⟨_, _, rfl⟩
  | n + 1 => by
    obtain ⟨v, fs, hv⟩ := num_parse h n
    exact ⟨_, _, by simp only [num, Term.parse, show tReg "S" = some ⟨"adt#S", [.entity, .entity]⟩ from rfl, List.length_cons,
      List.length_nil, Nat.add_sub_cancel, List.drop_succ_cons, List.drop_zero, Term.parseArgs, hv]; rfl⟩

private def peano : Nat → VTerm Int
  | 0 => .obj "Z" []
  | n + 1 => .obj "S" [peano n]

private theorem peano_inj : ∀ {m n : Nat}, peano m = peano n → m = n
  | 0, 0, _ => rfl
  | 0, n + 1, h => by simp [peano] at h
  | m + 1, 0, h => by simp [peano] at h
  | m + 1, n + 1, h => by
    simp only [peano, VTerm.obj.injEq, List.cons.injEq, and_true, true_and] at h
    rw [peano_inj h]

private theorem num_value : ∀ n, (num n).value tConv (argTypes tReg) (fun _ _ => none) .entity = some (peano n)
  | 0 => rfl
  | n + 1 => by
    simp only [num, Term.value, show argTypes tReg "S" = some [.entity] from rfl, Term.valueArgs, num_value n, Option.map_some, peano]

/-- Different terms may be the same entity: whatever the hash function, as it has results of 64 bits. -/
theorem c92_distinct_false : ∃ (C : Conv Int) (reg : String → Option Variant), RegOk reg ∧ ∀ h : Hash Int, ∃ (t t' : Term Int) (v : Val Int)
    (fs fs' : List (Fact Int)), parseTop C reg h t = .ok (v, fs) ∧ parseTop C reg h t' = .ok (v, fs') ∧
    t.value C (argTypes reg) (fun _ _ => none) .entity ≠ t'.value C (argTypes reg) (fun _ _ => none) .entity := by
  refine ⟨tConv, tReg, tReg_ok, fun h => ?_⟩
  have key : ∀ n, ∃ (x : Fin (2 ^ 64)) (fs : _), parseTop tConv tReg h (num n) = .ok (.entity x.val, fs) := by
    intro n
    obtain ⟨v, fs, hv⟩ := num_parse h n
    cases n with
    | zero => exact ⟨_, _, rfl⟩
    | succ n =>
      obtain ⟨w, gs, hw⟩ := num_parse h n
      exact ⟨_, _, by simp only [parseTop, num, Term.parse, show tReg "S" = some ⟨"adt#S", [.entity, .entity]⟩ from rfl, List.length_cons,
        List.length_nil, Nat.add_sub_cancel, List.drop_succ_cons, List.drop_zero, Term.parseArgs, hw]; rfl⟩
  choose x fs hx using key
  obtain ⟨m, n, hmn, he⟩ := Finite.exists_ne_map_eq_of_infinite x
  refine ⟨num m, num n, _, _, _, hx m, by rw [he]; exact hx n, ?_⟩
  rw [num_value, num_value]
  intro e
  exact hmn (peano_inj (Option.some.inj e))

/-- The same term, given as a string and made by `new`, need not be the same entity: `new` hashes the name of the relation instead of the
name of the constructor, so the two are equal only when two different names have the same hash. -/
theorem c92_ways_false : ∃ (C : Conv Int) (reg : String → Option Variant) (t : Term Int) (n : NTerm Int) (vt : VTerm Int), RegOk reg ∧
    t.value C (argTypes reg) (fun _ _ => none) .entity = some vt ∧ (∀ S, n.denotes S vt) ∧
    (∃ (h : Hash Int) (v : Val Int) (fs : List (Fact Int)), parseTop C reg h t = .ok (v, fs) ∧ v ≠ (n.eval h).1) ∧
    ∀ (h : Hash Int) (v : Val Int) (fs : List (Fact Int)), parseTop C reg h t = .ok (v, fs) → v = (n.eval h).1 →
      h [.str "Nil"] = h [.str "adt#Nil"] := by
  refine ⟨tConv, tReg, .obj "Nil" [] noLoc, .new "Nil" [], .obj "Nil" [], tReg_ok, rfl, fun S => ⟨rfl, trivial⟩, ?_, ?_⟩
  · refine ⟨fun ts => match ts with
      | [.str s] => if s = "Nil" then 0 else 1
      | _ => 2, _, _, rfl, ?_⟩
    decide +kernel
  · intro h v fs hp he
    simp only [parseTop, Term.parse, show tReg "Nil" = some ⟨"adt#Nil", [.entity]⟩ from rfl, List.length_cons, List.length_nil,
      Nat.add_sub_cancel, if_true, Term.parseArgs, Except.ok.injEq, Prod.mk.injEq] at hp
    rw [← hp.1] at he
    simp only [NTerm.eval, NTerm.evalArgs, Val.entity.injEq, encode, List.flatMap_nil] at he
    have : adtName "Nil" = "adt#Nil" := by decide +kernel
    rw [this] at he
    exact Fin.ext he

/-- The same constant, written at two places of a program, need not be the same entity: the places are hashed, so the two are equal only
when the hash function collides. -/
theorem c92_places_false : ∃ (t t' : Term Int), (∀ C types vars ty, t.value C types vars ty = t'.value C types vars ty) ∧
    (∃ (h : Hash Int) (c c' : Const Int × Loc) (fs fs' : List (CFact Int)), t.toFacts h (fun _ => none) = .ok (c, fs) ∧
      t'.toFacts h (fun _ => none) = .ok (c', fs') ∧ c.1 ≠ c'.1) ∧
    ∀ (h : Hash Int) (c c' : Const Int × Loc) (fs fs' : List (CFact Int)), t.toFacts h (fun _ => none) = .ok (c, fs) →
      t'.toFacts h (fun _ => none) = .ok (c', fs') → c.1 = c'.1 → ∃ a b, a ≠ b ∧ h a = h b := by
  refine ⟨.obj "S" [.const (.int 1) ⟨0, 10, 11⟩] ⟨0, 8, 12⟩, .obj "S" [.const (.int 1) ⟨0, 30, 31⟩] ⟨0, 28, 32⟩, ?_, ?_, ?_⟩
  · intro C types vars ty
    simp only [Term.value]
    cases types "S" with
    | none => rfl
    | some tys => cases tys with
      | nil => rfl
      | cons ty tys => simp only [Term.valueArgs, Term.value]
  · refine ⟨fun ts => match ts with
      | _ :: _ :: _ :: .num _ n :: _ => if n = 10 then 0 else 1
      | _ => 2, _, _, _, _, rfl, rfl, ?_⟩
    simp only [ne_eq, Const.entity.injEq]
    decide +kernel
  · intro h c c' fs fs' h1 h2 he
    simp only [Term.toFacts, Term.toFactsArgs, Outcome.bind, Outcome.ok.injEq, Prod.mk.injEq] at h1 h2
    rw [← h1.1, ← h2.1] at he
    simp only [Const.entity.injEq, encode] at he
    refine ⟨_, _, ?_, Fin.ext he⟩
    simp [constToks]

/-- A string may put a constructor where a number is expected: the fact that comes with it does not have the types of the constructor. -/
theorem c92_string_types_false : ∃ (C : Conv Int) (reg : String → Option Variant) (t : Term Int), RegOk reg ∧ ∀ h : Hash Int, ∃ v fs,
    parseTop C reg h t = .ok (v, fs) ∧ ∃ a ∈ fs, ¬ a.Typed (argTypes reg) := by
  refine ⟨tConv, tReg, .obj "Cons" [.obj "Nil" [] noLoc, .obj "Nil" [] noLoc] noLoc, tReg_ok, fun h => ⟨_, _, rfl, ?_⟩⟩
  refine ⟨_, List.mem_append_right _ (List.mem_singleton.2 rfl), fun ht => ?_⟩
  have := (ht "Cons" [.int .i32, .entity] (show "adt#Cons" = adtName "Cons" by decide +kernel) rfl).1
  simp [Val.ty] at this

/-- A term with a symbol, which a program may have as a constant, is refused as a string. -/
theorem c92_symbol_false : ∃ (C : Conv Int) (reg : String → Option Variant) (t : Term Int) (vt : VTerm Int), RegOk reg ∧
    t.value C (argTypes reg) (fun _ _ => none) .entity = some vt ∧ (∀ h, ∃ r, t.toFacts h (fun _ => none) = .ok r) ∧
    ∀ h : Hash Int, parseTop C reg h t = .error .cannotUnify :=
  ⟨tConv, tReg, .obj "Id" [.const (.symbol "a") noLoc] noLoc, _, tReg_ok, rfl, fun _ => ⟨_, rfl⟩, fun _ => rfl⟩

/-! ## The hypotheses are met -/

/-- `Cons(1, Nil())` -/
private def one : Term Int := .obj "Cons" [.const (.int 1) ⟨0, 20, 21⟩, .obj "Nil" [] ⟨0, 23, 28⟩] ⟨0, 15, 29⟩

private def oneNew : NTerm Int := .new "Cons" [.val (.int .i32 1), .new "Nil" []]

private def tHash : Hash Int := fun ts => match ts with
  | .str s :: r => Fin.ofNat _ (s.toList.length * 100 + r.length)
  | _ => 0

private def tSources : Sources Int := ⟨[one], [oneNew], [(one, fun _ => none)]⟩

private def tToks : List (List (Tok Int)) :=
  [[.str "Nil"], [.str "Cons", .num 32 1, .str "entity", .num 64 300], [.str (adtName "Nil")],
   [.str (adtName "Cons"), .num 32 1, .str "entity", .num 64 700], .str "Cons" :: [(Const.int 1, (⟨0, 20, 21⟩ : Loc)), (.entity 300, ⟨0, 23, 28⟩)].flatMap constToks]

private theorem one_parse : parseTop tConv tReg tHash one = .ok (.entity 403,
    [⟨adtName "Nil", .entity 300, []⟩, ⟨adtName "Cons", .entity 403, [.int .i32 1, .entity 300]⟩]) := by rfl

private theorem oneNew_eval : oneNew.eval tHash = (.entity 803,
    [⟨adtName "Nil", .entity 700, []⟩, ⟨adtName "Cons", .entity 803, [.int .i32 1, .entity 700]⟩]) := by rfl

private theorem one_const : one.toFacts tHash (fun _ => none) = .ok ((.entity 410, ⟨0, 15, 29⟩),
    [⟨"Nil", .entity 300, []⟩, ⟨"Cons", .entity 410, [.int 1, .entity 300]⟩]) := by rfl

private theorem tHashed {toks : List (Tok Int)} (hu : tSources.Hashed tConv tReg tHash toks) : toks ∈ tToks := by
  cases hu with
  | string ht hp hm =>
    simp only [tSources, List.mem_singleton] at ht
    subst ht
    rw [one_parse] at hp
    simp only [Except.ok.injEq, Prod.mk.injEq] at hp
    rw [← hp.2] at hm
    simp only [List.mem_cons, Fact.mk.injEq, List.not_mem_nil, or_false] at hm
    rcases hm with ⟨h1, -, rfl⟩ | ⟨h1, -, rfl⟩
    · rw [adtName_inj h1]; simp [tToks]
    · rw [adtName_inj h1]; simp [tToks, valToks, IntTy.bits]
  | new hn hm =>
    simp only [tSources, List.mem_singleton] at hn
    subst hn
    rw [oneNew_eval] at hm
    simp only [List.mem_cons, Fact.mk.injEq, List.not_mem_nil, or_false] at hm
    rcases hm with ⟨h1, -, rfl⟩ | ⟨h1, -, rfl⟩
    · rw [h1]; simp [tToks]
    · rw [h1]; simp [tToks, valToks, IntTy.bits]
  | const hp ht =>
    simp only [tSources, List.mem_singleton] at hp
    subst hp
    simp only [one, Term.hashed, Term.hashedArgs, Term.toFactsArgs, Term.toFacts, Outcome.bind, List.flatMap_nil, List.nil_append,
      List.append_nil, List.mem_append, List.mem_singleton] at ht
    rcases ht with rfl | rfl
    · simp [tToks]
    · right; right; right; right; left

private theorem tFacts {a : Fact Int} (ha : tSources.Facts tConv tReg tHash a) :
    (a.rel = adtName "Nil" ∧ a.args = []) ∨ (a.rel = adtName "Cons" ∧ ∃ e, a.args = [.int .i32 1, .entity e]) := by
  cases ha with
  | string ht hp hm =>
    simp only [tSources, List.mem_singleton] at ht
    subst ht
    rw [one_parse] at hp
    simp only [Except.ok.injEq, Prod.mk.injEq] at hp
    rw [← hp.2] at hm
    simp only [List.mem_cons, List.not_mem_nil, or_false] at hm
    rcases hm with rfl | rfl
    · exact Or.inl ⟨rfl, rfl⟩
    · exact Or.inr ⟨rfl, _, rfl⟩
  | new hn hm =>
    simp only [tSources, List.mem_singleton] at hn
    subst hn
    rw [oneNew_eval] at hm
    simp only [List.mem_cons, List.not_mem_nil, or_false] at hm
    rcases hm with rfl | rfl
    · exact Or.inl ⟨rfl, rfl⟩
    · exact Or.inr ⟨rfl, _, rfl⟩
  | const hp he hf hi =>
    simp only [tSources, List.mem_singleton] at hp
    subst hp
    rw [one_const] at he
    simp only [Outcome.ok.injEq, Prod.mk.injEq] at he
    rw [← he.2] at hf
    obtain ⟨tys, e, h1, -, h3, -, h5⟩ := hi
    simp only [List.mem_cons, List.not_mem_nil, or_false] at hf
    rcases hf with rfl | rfl
    · simp only [show argTypes tReg "Nil" = some [] from rfl, Option.some.injEq] at h1
      subst h1
      simp only [constVals, Option.some.injEq] at h5
      exact Or.inl ⟨h3, h5.symm⟩
    · simp only [show argTypes tReg "Cons" = some [.int .i32, .entity] from rfl, Option.some.injEq] at h1
      subst h1
      simp only [constVals, Const.toVal, Option.some.injEq] at h5
      exact Or.inr ⟨h3, _, h5.symm⟩

/-- The hypotheses of `c92_one_term_partial` are met by a run with the list `Cons(1, Nil())` given as a string, made by `new` and written
as a constant of the program: three entities, each of which is that one term. -/
example : RegOk tReg ∧ NoCollision tHash (tSources.Hashed tConv tReg tHash) ∧
    (∀ a, tSources.Facts tConv tReg tHash a → a.Typed (argTypes tReg)) ∧ Named (argTypes tReg) (tSources.Facts tConv tReg tHash) ∧
    ∀ e ∈ [403, 803, 410], (VTerm.obj "Cons" [.val (.int .i32 1), .obj "Nil" []]).shows (tSources.Facts tConv tReg tHash) (.entity e) := by
  refine ⟨tReg_ok, fun a b ha hb he => ?_, fun a ha => ?_, fun a ha => ?_, ?_⟩
  · have h1 := tHashed ha
    have h2 := tHashed hb
    have inj : (tToks.map tHash).Nodup := by decide +kernel
    exact List.inj_on_of_nodup_map inj h1 h2 he
  · intro f tys h1 h2
    rcases tFacts ha with ⟨e1, e2⟩ | ⟨e1, e, e2⟩
    · have := adtName_inj (h1.symm.trans e1)
      subst this
      simp only [show argTypes tReg "Nil" = some [] from rfl, Option.some.injEq] at h2
      subst h2
      rw [e2]
      simp
    · have := adtName_inj (h1.symm.trans e1)
      subst this
      simp only [show argTypes tReg "Cons" = some [.int .i32, .entity] from rfl, Option.some.injEq] at h2
      subst h2
      rw [e2]
      refine ⟨rfl, fun v hv => ?_⟩
      simp only [List.mem_cons, List.not_mem_nil, or_false] at hv
      rcases hv with rfl | rfl
      · simp only [InRange]; decide
      · trivial
  · rcases tFacts ha with ⟨e1, e2⟩ | ⟨e1, e, e2⟩
    · exact ⟨_, e1, by decide +kernel, rfl⟩
    · exact ⟨_, e1, by decide +kernel, rfl⟩
  · intro e he
    simp only [List.mem_cons, List.not_mem_nil, or_false] at he
    rcases he with rfl | rfl | rfl
    · obtain ⟨vt, h1, h2⟩ := c92_string tReg_ok one_parse
      simp only [show one.value tConv (argTypes tReg) (fun _ _ => none) .entity = some (.obj "Cons" [.val (.int .i32 1), .obj "Nil" []]) from rfl,
        Option.some.injEq] at h1
      subst h1
      exact shows_mono (fun a ha => .string (by simp [tSources]) one_parse ha) h2
    · have := c92_new (h := tHash) (S := tSources.Facts tConv tReg tHash) (n := oneNew) (t := .obj "Cons" [.val (.int .i32 1), .obj "Nil" []])
        (fun a ha => .new (by simp [tSources]) ha) ⟨rfl, ⟨rfl, by simp⟩, ⟨rfl, trivial⟩, trivial⟩
      rw [oneNew_eval] at this
      exact this
    · obtain ⟨v, h1, h2⟩ := c92_const (C := tConv) (h := tHash) (types := argTypes tReg) (vars := fun _ _ => none) (cvars := fun _ => none)
        (S := tSources.Facts tConv tReg tHash) (by simp) one_const
        ⟨rfl, fun tys ht => by
          simp only [show argTypes tReg "Cons" = some [.int .i32, .entity] from rfl, Option.some.injEq] at ht
          subst ht
          exact ⟨trivial, ⟨rfl, fun tys' _ => by simp [Term.sortedArgs]⟩, trivial⟩⟩
        (show one.value tConv (argTypes tReg) (fun _ _ => none) .entity = some (.obj "Cons" [.val (.int .i32 1), .obj "Nil" []]) from rfl)
        (fun f hf a ha => .const (p := (one, fun _ => none)) (by simp [tSources]) one_const hf ha)
      simp only [Const.toVal, Option.some.injEq] at h1
      subst h1
      exact h2

/-- `Cons(4294967297, Nil())` -/
private def oneWrapped : Term Int := .obj "Cons" [.const (.int 4294967297) noLoc, .obj "Nil" [] noLoc] noLoc

/-- The hypotheses of `c92_strings_partial` are met by `Cons(1, Nil())` and `Cons(4294967297, Nil())`, which are the same list of `i32`. -/
example : one.noSymbol = true ∧ parseTop tConv tReg tHash oneWrapped = parseTop tConv tReg tHash one ∧
    (∃ r, parseTop tConv tReg tHash one = .ok r) ∧ one.sorted (argTypes tReg) .entity ∧ oneWrapped.sorted (argTypes tReg) .entity ∧
    (∀ f, (tReg f).isSome → '#' ∉ f.toList) ∧ NoCollision tHash (Sources.Hashed tConv tReg tHash ⟨[one, oneWrapped], [], []⟩) := by
  have hw : parseTop tConv tReg tHash oneWrapped = parseTop tConv tReg tHash one := rfl
  have sorted : ∀ {c l l1 l2}, (Term.obj "Cons" [.const c l, .obj "Nil" [] l1] l2 : Term Int).sorted (argTypes tReg) .entity := by
    intro c l l1 l2
    refine ⟨rfl, fun tys ht => ?_⟩
    simp only [show argTypes tReg "Cons" = some [.int .i32, .entity] from rfl, Option.some.injEq] at ht
    subst ht
    exact ⟨trivial, ⟨rfl, fun tys' _ => by simp [Term.sortedArgs]⟩, trivial⟩
  refine ⟨rfl, hw, ⟨_, one_parse⟩, sorted, sorted, fun f hf => ?_, fun a b ha hb he => ?_⟩
  · unfold tReg at hf
    split at hf
    · subst f; decide +kernel
    split at hf
    · subst f; decide +kernel
    split at hf
    · subst f; decide +kernel
    split at hf
    · subst f; decide +kernel
    split at hf
    · subst f; decide +kernel
    · simp at hf
  · have mem : ∀ {x : List (Tok Int)}, Sources.Hashed tConv tReg tHash ⟨[one, oneWrapped], [], []⟩ x → x ∈ tToks := by
      intro x hx
      refine tHashed ?_
      cases hx with
      | string ht hp hm =>
        simp only [List.mem_cons, List.not_mem_nil, or_false] at ht
        rcases ht with rfl | rfl
        · exact .string (by simp [tSources]) hp hm
        · exact .string (by simp [tSources]) (hw ▸ hp) hm
      | new ht _ => simp at ht
      | const ht _ => simp at ht
    have inj : (tToks.map tHash).Nodup := by decide +kernel
    exact List.inj_on_of_nodup_map inj (mem ha) (mem hb) he

/-- A history of the store: two facts of one entity, one of another, and a relation taken out in between. -/
example : (runOps [Op.add ⟨"adt#A", .entity 1, []⟩, .add ⟨"adt#B", .entity 2, [.entity 1]⟩, .drain (· == "adt#A"),
    .add (⟨"adt#A", .entity 3, []⟩ : Fact Int)] []) =
    ([("adt#A", [[.entity 1]])], [("adt#B", [(.entity 2, [[.entity 1]])]), ("adt#A", [(.entity 3, [[]])])]) := by
  rfl

end Scallop.Ent
