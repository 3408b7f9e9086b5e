import Verif.Proof.Entity

/-!
# What making an entity does
-/

namespace Scallop.Ent

open Ty

variable {F : Type}

theorem leaf_of {v : Val F} (h : ∀ e, v ≠ .entity e) : leaf v = some (.val v) := by
  cases v <;> first | rfl | exact absurd rfl (h _)

theorem of_leaf {v : Val F} {t : VTerm F} (h : leaf v = some t) : t = .val v ∧ ∀ e, v ≠ .entity e := by
  cases v <;> simp [leaf] at h <;> subst h <;> simp

section
variable {C : Conv F} {reg : String → Option Variant} {h : Hash F}

mutual
theorem parse_shows (hr : RegOk reg) : ∀ {t : Term F} {ty : VTy} {v : Val F} {fs : List (Fact F)}, t.parse C reg h ty = .ok (v, fs) →
    ∃ vt, t.value C (argTypes reg) (fun _ _ => none) ty = some vt ∧ vt.shows (· ∈ fs) v
  | .const c _, ty, v, fs, hp => by
    simp only [Term.parse] at hp
    split at hp
    · next w hw =>
      simp only [Except.ok.injEq, Prod.mk.injEq] at hp
      obtain ⟨rfl, rfl⟩ := hp
      obtain ⟨h1, h2⟩ := parseConst_toVal hw
      exact ⟨.val w, by simp [Term.value, h1, leaf_of h2], ⟨rfl, h2⟩⟩
    · simp at hp
  | .var _, _, _, _, hp => by simp [Term.parse] at hp
  | .other, _, _, _, hp => by simp [Term.parse] at hp
  | .obj f args _, ty, v, fs, hp => by
    simp only [Term.parse] at hp
    split at hp
    · simp at hp
    · next var hvar =>
      split at hp
      · next hlen =>
        split at hp
        · simp at hp
        · next r hr' =>
          simp only [Except.ok.injEq, Prod.mk.injEq] at hp
          obtain ⟨rfl, rfl⟩ := hp
          obtain ⟨vts, h1, h2⟩ := parseArgs_shows hr (vs := r.1) (fs := r.2) (by simpa using hlen.symm) hr'
          refine ⟨.obj f vts, by simp only [Term.value, argTypes, hvar, Option.map_some]; simp only [h1, Option.map_some], ?_⟩
          simp only [VTerm.shows]
          refine ⟨_, _, rfl, ?_, showsAll_mono (fun a ha => ?_) h2⟩
          · simp [(hr f var hvar).1]
          · simp [ha]
      · simp at hp
theorem parseArgs_shows (hr : RegOk reg) : ∀ {ts : List (Term F)} {tys : List VTy} {vs : List (Val F)} {fs : List (Fact F)},
    ts.length = tys.length → Term.parseArgs C reg h ts tys = .ok (vs, fs) →
    ∃ vts, Term.valueArgs C (argTypes reg) (fun _ _ => none) ts tys = some vts ∧ VTerm.showsAll (· ∈ fs) vts vs
  | [], [], vs, fs, _, hp => by
    simp only [Term.parseArgs, Except.ok.injEq, Prod.mk.injEq] at hp
    obtain ⟨rfl, rfl⟩ := hp
    exact ⟨[], by simp [Term.valueArgs], by simp [VTerm.showsAll]⟩
  | [], _ :: _, _, _, hl, _ => by simp at hl
  | _ :: _, [], _, _, hl, _ => by simp at hl
  | t :: ts, ty :: tys, vs, fs, hl, hp => by
    simp only [Term.parseArgs] at hp
    split at hp
    · simp at hp
    · next r hr' =>
      split at hp
      · simp at hp
      · next s hs =>
        simp only [Except.ok.injEq, Prod.mk.injEq] at hp
        obtain ⟨rfl, rfl⟩ := hp
        obtain ⟨vt, h1, h2⟩ := parse_shows hr (v := r.1) (fs := r.2) hr'
        obtain ⟨vts, h3, h4⟩ := parseArgs_shows hr (vs := s.1) (fs := s.2) (by simpa using hl) hs
        refine ⟨vt :: vts, by simp [Term.valueArgs, h1, h3], ?_⟩
        simp only [VTerm.showsAll]
        exact ⟨shows_mono (fun a ha => by simp [ha]) h2, showsAll_mono (fun a ha => by simp [ha]) h4⟩
end

mutual
theorem parse_made (hr : RegOk reg) : ∀ {t : Term F} {ty : VTy} {v : Val F} {fs : List (Fact F)}, t.parse C reg h ty = .ok (v, fs) →
    ∀ a ∈ fs, ∃ f vs, (reg f).isSome ∧ a = ⟨adtName f, .entity (encode h valToks f vs), vs⟩
  | .const c _, ty, v, fs, hp => by
    simp only [Term.parse] at hp
    split at hp
    · simp only [Except.ok.injEq, Prod.mk.injEq] at hp
      rw [← hp.2]
      simp
    · simp at hp
  | .var _, _, _, _, hp => by simp [Term.parse] at hp
  | .other, _, _, _, hp => by simp [Term.parse] at hp
  | .obj f args _, ty, v, fs, hp => by
    simp only [Term.parse] at hp
    split at hp
    · simp at hp
    · next var hvar =>
      split at hp
      · split at hp
        · simp at hp
        · next r hr' =>
          simp only [Except.ok.injEq, Prod.mk.injEq] at hp
          obtain ⟨rfl, rfl⟩ := hp
          intro a ha
          rcases List.mem_append.1 ha with ha | ha
          · exact parseArgs_made hr (vs := r.1) hr' a ha
          · simp only [List.mem_singleton] at ha
            exact ⟨f, r.1, by simp [hvar], by rw [ha, (hr f var hvar).1]⟩
      · simp at hp
theorem parseArgs_made (hr : RegOk reg) : ∀ {ts : List (Term F)} {tys : List VTy} {vs : List (Val F)} {fs : List (Fact F)},
    Term.parseArgs C reg h ts tys = .ok (vs, fs) →
    ∀ a ∈ fs, ∃ f vs, (reg f).isSome ∧ a = ⟨adtName f, .entity (encode h valToks f vs), vs⟩
  | [], _, vs, fs, hp => by
    simp only [Term.parseArgs, Except.ok.injEq, Prod.mk.injEq] at hp
    rw [← hp.2]
    simp
  | _ :: _, [], vs, fs, hp => by
    simp only [Term.parseArgs, Except.ok.injEq, Prod.mk.injEq] at hp
    rw [← hp.2]
    simp
  | t :: ts, ty :: tys, vs, fs, hp => by
    simp only [Term.parseArgs] at hp
    split at hp
    · simp at hp
    · next r hr' =>
      split at hp
      · simp at hp
      · next s hs =>
        simp only [Except.ok.injEq, Prod.mk.injEq] at hp
        obtain ⟨rfl, rfl⟩ := hp
        intro a ha
        rcases List.mem_append.1 ha with ha | ha
        · exact parse_made hr (v := r.1) hr' a ha
        · exact parseArgs_made hr (vs := s.1) hs a ha
end

theorem wrap_fits (k : IntTy) (n : Int) : k.fits (wrap k n) = true := by
  simp only [IntTy.fits, wrap, Bool.and_eq_true, decide_eq_true_eq]
  cases k <;> simp [IntTy.lo, IntTy.hi, IntTy.signed, IntTy.bits] <;> omega

theorem parseConst_ty {c : Const F} {ty : VTy} {v : Val F} (hv : parseConst C c ty = some v) : v.ty = ty ∧ InRange v := by
  cases c <;> cases ty <;> simp [parseConst] at hv <;> subst hv <;> simp [Val.ty, InRange, wrap_fits]

mutual
theorem parse_typed (hr : RegOk reg) : ∀ {t : Term F} {ty : VTy} {v : Val F} {fs : List (Fact F)}, t.parse C reg h ty = .ok (v, fs) →
    t.sorted (argTypes reg) ty → (v.ty = ty ∧ InRange v) ∧ ∀ a ∈ fs, a.Typed (argTypes reg)
  | .const c _, ty, v, fs, hp, _ => by
    simp only [Term.parse] at hp
    split at hp
    · next w hw =>
      simp only [Except.ok.injEq, Prod.mk.injEq] at hp
      obtain ⟨rfl, rfl⟩ := hp
      exact ⟨parseConst_ty hw, by simp⟩
    · simp at hp
  | .var _, _, _, _, hp, _ => by simp [Term.parse] at hp
  | .other, _, _, _, hp, _ => by simp [Term.parse] at hp
  | .obj f args _, ty, v, fs, hp, hs => by
    simp only [Term.sorted] at hs
    obtain ⟨rfl, hs⟩ := hs
    simp only [Term.parse] at hp
    split at hp
    · simp at hp
    · next var hvar =>
      split at hp
      · next hlen =>
        split at hp
        · simp at hp
        · next r hr' =>
          simp only [Except.ok.injEq, Prod.mk.injEq] at hp
          obtain ⟨rfl, rfl⟩ := hp
          have hty : argTypes reg f = some (var.argTypes.drop 1) := by simp [argTypes, hvar]
          obtain ⟨h1, h2, h3⟩ := parseArgs_typed hr (vs := r.1) (fs := r.2) (by simpa using hlen.symm) hr' (hs _ hty)
          refine ⟨⟨rfl, trivial⟩, fun a ha => ?_⟩
          rcases List.mem_append.1 ha with ha | ha
          · exact h3 a ha
          · simp only [List.mem_singleton] at ha
            subst ha
            intro g tys hg htys
            rw [(hr f var hvar).1] at hg
            have := adtName_inj hg
            subst this
            rw [hty] at htys
            cases htys
            exact ⟨h1, h2⟩
      · simp at hp
theorem parseArgs_typed (hr : RegOk reg) : ∀ {ts : List (Term F)} {tys : List VTy} {vs : List (Val F)} {fs : List (Fact F)},
    ts.length = tys.length → Term.parseArgs C reg h ts tys = .ok (vs, fs) → Term.sortedArgs (argTypes reg) ts tys →
    vs.map Val.ty = tys ∧ (∀ v ∈ vs, InRange v) ∧ ∀ a ∈ fs, a.Typed (argTypes reg)
  | [], [], vs, fs, _, hp, _ => by
    simp only [Term.parseArgs, Except.ok.injEq, Prod.mk.injEq] at hp
    obtain ⟨rfl, rfl⟩ := hp
    simp
  | [], _ :: _, _, _, hl, _, _ => by simp at hl
  | _ :: _, [], _, _, hl, _, _ => by simp at hl
  | t :: ts, ty :: tys, vs, fs, hl, hp, hs => by
    simp only [Term.sortedArgs] at hs
    simp only [Term.parseArgs] at hp
    split at hp
    · simp at hp
    · next r hr' =>
      split at hp
      · simp at hp
      · next s hs' =>
        simp only [Except.ok.injEq, Prod.mk.injEq] at hp
        obtain ⟨rfl, rfl⟩ := hp
        obtain ⟨⟨h1, h2⟩, h3⟩ := parse_typed hr (v := r.1) (fs := r.2) hr' hs.1
        obtain ⟨h4, h5, h6⟩ := parseArgs_typed hr (vs := s.1) (fs := s.2) (by simpa using hl) hs' hs.2
        refine ⟨by simp [h1, h4], fun v hv => ?_, fun a ha => ?_⟩
        · rcases List.mem_cons.1 hv with rfl | hv
          · exact h2
          · exact h5 v hv
        · rcases List.mem_append.1 ha with ha | ha
          · exact h3 a ha
          · exact h6 a ha
end
end

mutual
theorem eval_shows {h : Hash F} {S : Fact F → Prop} : ∀ {n : NTerm F} {t : VTerm F}, (∀ a ∈ (n.eval h).2, S a) → n.denotes S t →
    t.shows S (n.eval h).1
  | .val v, t, _, hd => by simpa [NTerm.denotes, NTerm.eval] using hd
  | .new f args, .val v, _, hd => by simp [NTerm.denotes] at hd
  | .new f args, .obj g ts, hS, hd => by
    simp only [NTerm.denotes] at hd
    obtain ⟨rfl, hd⟩ := hd
    simp only [NTerm.eval] at hS ⊢
    simp only [VTerm.shows]
    exact ⟨_, (NTerm.evalArgs h args).1, rfl, hS _ (by simp), evalArgs_shows (h := h) (fun a ha => hS a (List.mem_append_left _ ha)) hd⟩
theorem evalArgs_shows {h : Hash F} {S : Fact F → Prop} : ∀ {ns : List (NTerm F)} {ts : List (VTerm F)},
    (∀ a ∈ (NTerm.evalArgs h ns).2, S a) → NTerm.denotesAll S ns ts → VTerm.showsAll S ts (NTerm.evalArgs h ns).1
  | [], [], _, _ => by simp [NTerm.evalArgs, VTerm.showsAll]
  | [], _ :: _, _, hd => by simp [NTerm.denotesAll] at hd
  | _ :: _, [], _, hd => by simp [NTerm.denotesAll] at hd
  | n :: ns, t :: ts, hS, hd => by
    simp only [NTerm.denotesAll] at hd
    simp only [NTerm.evalArgs] at hS ⊢
    simp only [VTerm.showsAll]
    exact ⟨eval_shows (fun a ha => hS a (by simp [ha])) hd.1, evalArgs_shows (fun a ha => hS a (by simp [ha])) hd.2⟩
end

mutual
theorem eval_made {h : Hash F} : ∀ (n : NTerm F), ∀ a ∈ (n.eval h).2,
    ∃ f vs, a = ⟨adtName f, .entity (encode h valToks (adtName f) vs), vs⟩
  | .val v, a, ha => by simp [NTerm.eval] at ha
  | .new f args, a, ha => by
    simp only [NTerm.eval] at ha
    rcases List.mem_append.1 ha with ha | ha
    · exact evalArgs_made args a ha
    · simp only [List.mem_singleton] at ha
      exact ⟨f, _, ha⟩
theorem evalArgs_made {h : Hash F} : ∀ (ns : List (NTerm F)), ∀ a ∈ (NTerm.evalArgs h ns).2,
    ∃ f vs, a = ⟨adtName f, .entity (encode h valToks (adtName f) vs), vs⟩
  | [], a, ha => by simp [NTerm.evalArgs] at ha
  | n :: ns, a, ha => by
    simp only [NTerm.evalArgs] at ha
    rcases List.mem_append.1 ha with ha | ha
    · exact eval_made n a ha
    · exact evalArgs_made ns a ha
end

section
variable {C : Conv F} {types : String → Option (List VTy)} {vars : String → VTy → Option (VTerm F)} {h : Hash F}
  {cvars : String → Option (Const F × Loc)} {S : Fact F → Prop}

mutual
theorem toFacts_shows (hv : ∀ x ty vt, vars x ty = some vt → ∃ c l v, cvars x = some (c, l) ∧ c.toVal C.ofInt C.toF ty = some v ∧ vt.shows S v) :
    ∀ {t : Term F} {ty : VTy} {c : Const F} {l : Loc} {fs : List (CFact F)} {vt : VTerm F}, t.toFacts h cvars = .ok ((c, l), fs) →
    t.sorted types ty → t.value C types vars ty = some vt → (∀ f ∈ fs, ∀ a, f.IsFact C types a → S a) →
    ∃ v, c.toVal C.ofInt C.toF ty = some v ∧ vt.shows S v
  | .const c _, ty, c', l', fs, vt, hp, _, hval, _ => by
    simp only [Term.toFacts, Outcome.ok.injEq, Prod.mk.injEq] at hp
    obtain ⟨⟨rfl, rfl⟩, rfl⟩ := hp
    simp only [Term.value] at hval
    obtain ⟨v, h1, h2⟩ := Option.bind_eq_some_iff.1 hval
    obtain ⟨rfl, h3⟩ := of_leaf h2
    exact ⟨v, h1, ⟨rfl, h3⟩⟩
  | .var x, ty, c', l', fs, vt, hp, _, hval, _ => by
    simp only [Term.value] at hval
    obtain ⟨c, l, v, h1, h2, h3⟩ := hv x ty vt hval
    simp only [Term.toFacts, h1, Outcome.ok.injEq, Prod.mk.injEq] at hp
    obtain ⟨⟨rfl, rfl⟩, rfl⟩ := hp
    exact ⟨v, h2, h3⟩
  | .other, _, _, _, _, _, hp, _, _, _ => by simp [Term.toFacts] at hp
  | .obj f args l, ty, c', l', fs, vt, hp, hs, hval, hS => by
    simp only [Term.sorted] at hs
    obtain ⟨rfl, hs⟩ := hs
    simp only [Term.value] at hval
    split at hval
    · simp at hval
    · next tys htys =>
      simp only [Option.map_eq_some_iff] at hval
      obtain ⟨vts, hvts, rfl⟩ := hval
      simp only [Term.toFacts] at hp
      cases hr : Term.toFactsArgs h cvars args with
      | undef => rw [hr] at hp; simp [Outcome.bind] at hp
      | panic => rw [hr] at hp; simp [Outcome.bind] at hp
      | ok r =>
        rw [hr] at hp
        simp only [Outcome.bind, Outcome.ok.injEq, Prod.mk.injEq] at hp
        obtain ⟨⟨rfl, rfl⟩, rfl⟩ := hp
        obtain ⟨vs, h1, h2⟩ := toFactsArgs_shows hv (cs := r.1) (fs := r.2) hr (hs tys htys) hvts
          (fun f hf a ha => hS f (by simp [hf]) a ha)
        refine ⟨.entity _, rfl, ?_⟩
        simp only [VTerm.shows]
        refine ⟨_, vs, rfl, ?_, h2⟩
        exact hS _ (List.mem_append_right _ (List.mem_singleton.2 rfl)) _ ⟨tys, _, htys, rfl, rfl, rfl, h1⟩
theorem toFactsArgs_shows (hv : ∀ x ty vt, vars x ty = some vt → ∃ c l v, cvars x = some (c, l) ∧ c.toVal C.ofInt C.toF ty = some v ∧ vt.shows S v) :
    ∀ {ts : List (Term F)} {tys : List VTy} {cs : List (Const F × Loc)} {fs : List (CFact F)} {vts : List (VTerm F)},
    Term.toFactsArgs h cvars ts = .ok (cs, fs) → Term.sortedArgs types ts tys → Term.valueArgs C types vars ts tys = some vts →
    (∀ f ∈ fs, ∀ a, f.IsFact C types a → S a) → ∃ vs, constVals C (cs.map Prod.fst) tys = some vs ∧ VTerm.showsAll S vts vs
  | [], [], cs, fs, vts, hp, _, hval, _ => by
    simp only [Term.toFactsArgs, Outcome.ok.injEq, Prod.mk.injEq] at hp
    obtain ⟨rfl, rfl⟩ := hp
    simp only [Term.valueArgs, Option.some.injEq] at hval
    subst hval
    exact ⟨[], rfl, trivial⟩
  | [], _ :: _, _, _, _, _, _, hval, _ => by simp [Term.valueArgs] at hval
  | _ :: _, [], _, _, _, _, _, hval, _ => by simp [Term.valueArgs] at hval
  | t :: ts, ty :: tys, cs, fs, vts, hp, hs, hval, hS => by
    simp only [Term.sortedArgs] at hs
    simp only [Term.valueArgs] at hval
    split at hval
    · next vt vts' h1 h2 =>
      simp only [Option.some.injEq] at hval
      subst hval
      simp only [Term.toFactsArgs] at hp
      cases hr : Term.toFacts h cvars t with
      | undef => rw [hr] at hp; simp [Outcome.bind] at hp
      | panic => rw [hr] at hp; simp [Outcome.bind] at hp
      | ok r =>
        cases hr2 : Term.toFactsArgs h cvars ts with
        | undef => rw [hr, hr2] at hp; simp [Outcome.bind] at hp
        | panic => rw [hr, hr2] at hp; simp [Outcome.bind] at hp
        | ok s =>
          rw [hr, hr2] at hp
          simp only [Outcome.bind, Outcome.ok.injEq, Prod.mk.injEq] at hp
          obtain ⟨rfl, rfl⟩ := hp
          obtain ⟨v, h3, h4⟩ := toFacts_shows hv (c := r.1.1) (l := r.1.2) (fs := r.2) hr hs.1 h1 (fun f hf a ha => hS f (by simp [hf]) a ha)
          obtain ⟨vs, h5, h6⟩ := toFactsArgs_shows hv (cs := s.1) (fs := s.2) hr2 hs.2 h2 (fun f hf a ha => hS f (by simp [hf]) a ha)
          refine ⟨v :: vs, by simp [constVals, h3, h5], ?_⟩
          simp only [VTerm.showsAll]
          exact ⟨h4, h6⟩
    · simp at hval
end

mutual
theorem toFacts_made : ∀ {t : Term F} {c : Const F × Loc} {fs : List (CFact F)}, t.toFacts h cvars = .ok (c, fs) →
    ∀ f ∈ fs, ∃ cs : List (Const F × Loc), f.id = .entity (encode h constToks f.functor cs) ∧ f.args = cs.map Prod.fst ∧
      (.str f.functor :: cs.flatMap constToks) ∈ t.hashed h cvars
  | .const _ _, _, fs, hp => by
    simp only [Term.toFacts, Outcome.ok.injEq, Prod.mk.injEq] at hp
    rw [← hp.2]
    simp
  | .var x, _, fs, hp => by
    simp only [Term.toFacts] at hp
    split at hp
    · simp only [Outcome.ok.injEq, Prod.mk.injEq] at hp
      rw [← hp.2]
      simp
    · simp at hp
  | .other, _, _, hp => by simp [Term.toFacts] at hp
  | .obj f args l, c, fs, hp => by
    simp only [Term.toFacts] at hp
    cases hr : Term.toFactsArgs h cvars args with
    | undef => rw [hr] at hp; simp [Outcome.bind] at hp
    | panic => rw [hr] at hp; simp [Outcome.bind] at hp
    | ok r =>
      rw [hr] at hp
      simp only [Outcome.bind, Outcome.ok.injEq, Prod.mk.injEq] at hp
      obtain ⟨rfl, rfl⟩ := hp
      intro g hg
      rcases List.mem_append.1 hg with hg | hg
      · obtain ⟨cs, e1, e2, e3⟩ := toFactsArgs_made (cs := r.1) hr g hg
        exact ⟨cs, e1, e2, by simp [Term.hashed, e3]⟩
      · simp only [List.mem_singleton] at hg
        subst hg
        exact ⟨r.1, rfl, rfl, by simp [Term.hashed, hr]⟩
theorem toFactsArgs_made : ∀ {ts : List (Term F)} {cs : List (Const F × Loc)} {fs : List (CFact F)}, Term.toFactsArgs h cvars ts = .ok (cs, fs) →
    ∀ f ∈ fs, ∃ cs : List (Const F × Loc), f.id = .entity (encode h constToks f.functor cs) ∧ f.args = cs.map Prod.fst ∧
      (.str f.functor :: cs.flatMap constToks) ∈ Term.hashedArgs h cvars ts
  | [], _, fs, hp => by
    simp only [Term.toFactsArgs, Outcome.ok.injEq, Prod.mk.injEq] at hp
    rw [← hp.2]
    simp
  | t :: ts, cs, fs, hp => by
    simp only [Term.toFactsArgs] at hp
    cases hr : Term.toFacts h cvars t with
    | undef => rw [hr] at hp; simp [Outcome.bind] at hp
    | panic => rw [hr] at hp; simp [Outcome.bind] at hp
    | ok r =>
      cases hr2 : Term.toFactsArgs h cvars ts with
      | undef => rw [hr, hr2] at hp; simp [Outcome.bind] at hp
      | panic => rw [hr, hr2] at hp; simp [Outcome.bind] at hp
      | ok s =>
        rw [hr, hr2] at hp
        simp only [Outcome.bind, Outcome.ok.injEq, Prod.mk.injEq] at hp
        obtain ⟨rfl, rfl⟩ := hp
        intro g hg
        rcases List.mem_append.1 hg with hg | hg
        · obtain ⟨cs, e1, e2, e3⟩ := toFacts_made (c := r.1) hr g hg
          exact ⟨cs, e1, e2, by simp [Term.hashedArgs, e3]⟩
        · obtain ⟨cs, e1, e2, e3⟩ := toFactsArgs_made (cs := s.1) hr2 g hg
          exact ⟨cs, e1, e2, by simp [Term.hashedArgs, e3]⟩
end
end

/-- All facts of a run are of entities made from what has been hashed. -/
theorem sources_made {C : Conv F} {reg : String → Option Variant} {h : Hash F} (hr : RegOk reg) (P : Sources F) :
    Made C (argTypes reg) h (P.Hashed C reg h) (P.Facts C reg h) := by
  intro a ha
  cases ha with
  | string ht hp hm =>
    obtain ⟨f, vs, -, rfl⟩ := parse_made hr hp a hm
    exact ⟨_, .string ht hp hm, .string _ _ _, rfl⟩
  | new hn hm =>
    obtain ⟨f, vs, rfl⟩ := eval_made _ a hm
    exact ⟨_, .new hn hm, .new _ _ _, rfl⟩
  | @const p c fs f _ hp he hf hi =>
    obtain ⟨cs, e1, e2, e3⟩ := toFacts_made he f hf
    obtain ⟨tys, e, g1, g2, g3, g4, g5⟩ := hi
    obtain ⟨ar, ai, aa⟩ := a
    simp only at g3 g4 g5
    subst g3 g4
    rw [e1] at g2
    simp only [Const.entity.injEq] at g2
    subst g2
    rw [e2] at g5
    exact ⟨_, .const hp e3, .const _ _ _ cs tys g1 g5, rfl⟩

/-! ## The identity of a term -/

mutual
/-- The value that a string gives for a term. -/
def VTerm.code (h : Hash F) : VTerm F → Val F
  | .val v => v
  | .obj f args => .entity (encode h valToks f (VTerm.codes h args))
/-- For the arguments. -/
def VTerm.codes (h : Hash F) : List (VTerm F) → List (Val F)
  | [] => []
  | a :: as => VTerm.code h a :: VTerm.codes h as
end

section
variable {C : Conv F} {reg : String → Option Variant} {h : Hash F}

mutual
theorem parse_code : ∀ {t : Term F} {ty : VTy} {v : Val F} {fs : List (Fact F)} {vt : VTerm F}, t.parse C reg h ty = .ok (v, fs) →
    t.value C (argTypes reg) (fun _ _ => none) ty = some vt → v = vt.code h
  | .const c _, ty, v, fs, vt, hp, hv => by
    simp only [Term.parse] at hp
    split at hp
    · next w hw =>
      simp only [Except.ok.injEq, Prod.mk.injEq] at hp
      obtain ⟨rfl, rfl⟩ := hp
      simp only [Term.value, (parseConst_toVal hw).1, Option.bind_some] at hv
      obtain ⟨rfl, -⟩ := of_leaf hv
      rfl
    · simp at hp
  | .var _, _, _, _, _, hp, _ => by simp [Term.parse] at hp
  | .other, _, _, _, _, hp, _ => by simp [Term.parse] at hp
  | .obj f args _, ty, v, fs, vt, hp, hv => by
    simp only [Term.parse] at hp
    split at hp
    · simp at hp
    · next var hvar =>
      split at hp
      · split at hp
        · simp at hp
        · next r hr' =>
          simp only [Except.ok.injEq, Prod.mk.injEq] at hp
          obtain ⟨rfl, rfl⟩ := hp
          simp only [Term.value, argTypes, hvar, Option.map_some] at hv
          simp only [Option.map_eq_some_iff] at hv
          obtain ⟨vts, hvts, rfl⟩ := hv
          simp only [VTerm.code]
          rw [parseArgs_code (vs := r.1) (fs := r.2) hr' hvts]
      · simp at hp
theorem parseArgs_code : ∀ {ts : List (Term F)} {tys : List VTy} {vs : List (Val F)} {fs : List (Fact F)} {vts : List (VTerm F)},
    Term.parseArgs C reg h ts tys = .ok (vs, fs) → Term.valueArgs C (argTypes reg) (fun _ _ => none) ts tys = some vts →
    vs = VTerm.codes h vts
  | [], [], vs, fs, vts, hp, hv => by
    simp only [Term.parseArgs, Except.ok.injEq, Prod.mk.injEq] at hp
    simp only [Term.valueArgs, Option.some.injEq] at hv
    obtain ⟨rfl, rfl⟩ := hp
    subst hv
    rfl
  | [], _ :: _, _, _, _, _, hv => by simp [Term.valueArgs] at hv
  | _ :: _, [], _, _, _, _, hv => by simp [Term.valueArgs] at hv
  | t :: ts, ty :: tys, vs, fs, vts, hp, hv => by
    simp only [Term.valueArgs] at hv
    split at hv
    · next vt vts' h1 h2 =>
      simp only [Option.some.injEq] at hv
      subst hv
      simp only [Term.parseArgs] at hp
      split at hp
      · simp at hp
      · next r hr' =>
        split at hp
        · simp at hp
        · next s hs =>
          simp only [Except.ok.injEq, Prod.mk.injEq] at hp
          obtain ⟨rfl, rfl⟩ := hp
          simp only [VTerm.codes]
          rw [parse_code (v := r.1) (fs := r.2) hr' h1, parseArgs_code (vs := s.1) (fs := s.2) hs h2]
    · simp at hv
end

mutual
/-- A term without symbols that has a value is accepted. -/
theorem parse_accepts (hr : RegOk reg) : ∀ {t : Term F} {ty : VTy} {vt : VTerm F}, t.noSymbol = true →
    t.value C (argTypes reg) (fun _ _ => none) ty = some vt → ∃ r, t.parse C reg h ty = .ok r
  | .const c _, ty, vt, hn, hv => by
    simp only [Term.value] at hv
    obtain ⟨v, h1, h2⟩ := Option.bind_eq_some_iff.1 hv
    obtain ⟨-, h3⟩ := of_leaf h2
    have : parseConst C c ty = some v := by
      cases c <;> cases ty <;> simp_all [Const.toVal, parseConst, Term.noSymbol]
      exact h3 _ h1.symm
    refine ⟨(v, []), ?_⟩
    simp only [Term.parse, this]
  | .var _, _, _, _, hv => by simp [Term.value] at hv
  | .other, _, _, _, hv => by simp [Term.value] at hv
  | .obj f args _, ty, vt, hn, hv => by
    simp only [Term.value, argTypes] at hv
    simp only [Term.noSymbol] at hn
    cases hf : reg f with
    | none => simp [hf] at hv
    | some var =>
      simp only [hf, Option.map_some, Option.map_eq_some_iff] at hv
      obtain ⟨vts, hvts, rfl⟩ := hv
      obtain ⟨r, h1, h2⟩ := parseArgs_accepts hr hn hvts
      rw [List.length_drop] at h2
      refine ⟨(.entity (encode h valToks f r.1), r.2 ++ [⟨var.rel, .entity (encode h valToks f r.1), r.1⟩]), ?_⟩
      simp only [Term.parse, hf, h1, h2, if_true]
theorem parseArgs_accepts (hr : RegOk reg) : ∀ {ts : List (Term F)} {tys : List VTy} {vts : List (VTerm F)}, Term.noSymbols ts = true →
    Term.valueArgs C (argTypes reg) (fun _ _ => none) ts tys = some vts →
    ∃ r, Term.parseArgs C reg h ts tys = .ok r ∧ tys.length = ts.length
  | [], [], vts, _, hv => ⟨([], []), by simp only [Term.parseArgs], rfl⟩
  | [], _ :: _, _, _, hv => by simp [Term.valueArgs] at hv
  | _ :: _, [], _, _, hv => by simp [Term.valueArgs] at hv
  | t :: ts, ty :: tys, vts, hn, hv => by
    simp only [Term.noSymbols, Bool.and_eq_true] at hn
    simp only [Term.valueArgs] at hv
    split at hv
    · next vt vts' h1 h2 =>
      obtain ⟨r, h3⟩ := parse_accepts hr hn.1 h1
      obtain ⟨s, h4, h5⟩ := parseArgs_accepts hr hn.2 h2
      exact ⟨(r.1 :: s.1, r.2 ++ s.2), by simp only [Term.parseArgs, h3, h4], by simp [h5]⟩
    · simp at hv
end
end

/-! ## The store -/

section
variable [DecidableEq F]

theorem upsert_perm {α β γ : Type} [DecidableEq α] (k : α) (empty : β) (f : β → β) (g : α → β → List γ) (x : List γ)
    (he : g k empty = []) (hf : ∀ b, (g k (f b)).Perm (g k b ++ x)) : ∀ l : List (α × β),
    ((upsert k empty f l).flatMap fun p => g p.1 p.2).Perm ((l.flatMap fun p => g p.1 p.2) ++ x)
  | [] => by
    simp only [upsert, List.flatMap_cons, List.flatMap_nil, List.append_nil, List.nil_append]
    have := hf empty
    rwa [he, List.nil_append] at this
  | p :: rest => by
    simp only [upsert]
    split
    · next hp =>
      subst hp
      simp only [List.flatMap_cons]
      refine ((hf p.2).append_right _).trans ?_
      rw [List.append_assoc, List.append_assoc]
      exact List.Perm.append_left _ List.perm_append_comm
    · simp only [List.flatMap_cons, List.append_assoc]
      exact List.Perm.append_left _ (upsert_perm k empty f g x he hf rest)

theorem add_perm (s : Store F) (a : Fact F) : (s.add a).facts.Perm (s.facts ++ [a]) := by
  refine upsert_perm a.rel [] _ (fun r m => m.flatMap fun q => q.2.map fun t => (⟨r, q.1, t⟩ : Fact F)) [a] rfl (fun m => ?_) s
  exact upsert_perm a.id [] _ (fun i ts => ts.map fun t => (⟨a.rel, i, t⟩ : Fact F)) [a] rfl (fun ts => by simp) m

end

theorem drain_perm (s : Store F) (p : String → Bool) :
    (drained (s.drain p).1 ++ (s.drain p).2.facts.map Fact.tuple).Perm (s.facts.map Fact.tuple) := by
  induction s with
  | nil => exact List.Perm.refl _
  | cons q s ih =>
    have e : (Store.facts (q :: s)).map Fact.tuple = (q.2.flatMap fun r => r.2.map fun t => (q.1, r.1 :: t)) ++ (Store.facts s).map Fact.tuple := by
      simp [Store.facts, List.map_flatMap, Fact.tuple, Function.comp_def]
    rw [e]
    by_cases hq : p q.1 = true
    · have e1 : drained (Store.drain (q :: s) p).1 = (q.2.flatMap fun r => r.2.map fun t => (q.1, r.1 :: t)) ++ drained (Store.drain s p).1 := by
        simp [Store.drain, drained, hq, List.map_flatMap, Function.comp_def]
      have e2 : (Store.drain (q :: s) p).2 = (Store.drain s p).2 := by simp [Store.drain, hq]
      rw [e1, e2, List.append_assoc]
      exact List.Perm.append_left _ ih
    · have e1 : drained (Store.drain (q :: s) p).1 = drained (Store.drain s p).1 := by simp [Store.drain, drained, hq]
      have e2 : (Store.drain (q :: s) p).2 = q :: (Store.drain s p).2 := by simp [Store.drain, hq]
      have e3 : (Store.facts (q :: (Store.drain s p).2)).map Fact.tuple =
          (q.2.flatMap fun r => r.2.map fun t => (q.1, r.1 :: t)) ++ (Store.facts (Store.drain s p).2).map Fact.tuple := by
        simp [Store.facts, List.map_flatMap, Fact.tuple, Function.comp_def]
      rw [e1, e2, e3, ← List.append_assoc]
      refine (List.perm_append_comm.append_right _).trans ?_
      rw [List.append_assoc]
      exact List.Perm.append_left _ ih

end Scallop.Ent
