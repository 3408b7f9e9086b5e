import Verif.Proof.TypeDecl

/-! # Type inference of programs -/

namespace Scallop.Ty

variable {F : Type}

/-! ## Termination -/

theorem collect_mem {α β : Type} {f : α → Option β} {as : List α} {bs : List β} (h : collect f as = some bs) {b : β} (hb : b ∈ bs) :
    ∃ a ∈ as, f a = some b := by
  obtain ⟨i, hi⟩ := List.mem_iff_getElem?.1 hb
  obtain ⟨a, g1, g2⟩ := (collect_some h).2 i b hi
  exact ⟨a, List.mem_of_getElem? g1, g2⟩

theorem typeSet_noU (c : Const F) : c.typeSet ≠ .unsigned := by
  cases c <;> simp only [Const.typeSet] <;> try split
  all_goals simp

theorem put_noU {rt : RT} (hr : NoURel rt) {p : String} {tys : List TSet} (h : TSet.unsigned ∉ tys) : NoURel (rt.put p tys) := by
  intro q qt hq
  by_cases hqp : q = p
  · subst hqp
    rw [put_self] at hq
    simp only [Option.some.injEq] at hq
    subst hq
    exact h
  · rw [put_ne hqp] at hq
    exact hr q qt hq

theorem zip_noU {old cur n : List TSet} (h : collect (fun ab : TSet × TSet => TSet.unify ab.1 ab.2) (old.zip cur) = some n)
    (h1 : TSet.unsigned ∉ old) (h2 : TSet.unsigned ∉ cur) : TSet.unsigned ∉ n := by
  intro hm
  obtain ⟨ab, g1, g2⟩ := collect_mem h hm
  obtain ⟨a, b⟩ := ab
  have := List.of_mem_zip g1
  rcases (TSet.unify_some g2).2.2 with e | e
  · exact h1 (e ▸ this.1)
  · exact h2 (e ▸ this.2)

theorem resolve_noU {env : Env} {args : List (Const F × Option String)} {ts : List TSet} (h : collect (resolveConst env) args = some ts) :
    TSet.unsigned ∉ ts := by
  intro hm
  obtain ⟨c, _, g⟩ := collect_mem h hm
  unfold resolveConst at g
  split at g
  · simp at g
  · simp only [Option.some.injEq] at g
    exact typeSet_noU _ g

theorem arities_noU {env : Env} {as : List (TAtom F)} {rt rt' : RT} (h : foldOpt (addArity env) rt as = some rt') (hr : NoURel rt) :
    NoURel rt' := by
  induction as generalizing rt with
  | nil => simp only [foldOpt, Option.some.injEq] at h; subst h; exact hr
  | cons a as ih =>
    simp only [foldOpt, Option.bind_eq_some_iff] at h
    obtain ⟨rt1, h1, h2⟩ := h
    refine ih h2 ?_
    unfold addArity at h1
    split at h1
    · simp only [Option.some.injEq] at h1; subst h1; exact hr
    · split at h1
      · simp only [Option.some.injEq] at h1; subst h1
        exact put_noU hr (by simp [List.mem_replicate])
      · split at h1
        · simp only [Option.some.injEq] at h1; subst h1; exact hr
        · simp at h1

theorem addItem_noU {env : Env} {rt rt' : RT} {it : Item F} (h : addItem env rt it = some rt') (hr : NoURel rt) : NoURel rt' := by
  cases it with
  | decl p tys =>
    simp only [addItem] at h
    split at h
    · simp at h
    · simp only [addDecl, Option.bind_eq_some_iff] at h
      obtain ⟨ts, h1, h⟩ := h
      have hts : TSet.unsigned ∉ ts := by
        intro hm
        obtain ⟨n, _, g⟩ := collect_mem h1 hm
        simp at g
      split at h
      · next old ho =>
        simp only [Option.bind_eq_some_iff, Option.some.injEq] at h
        obtain ⟨n, h2, rfl⟩ := h
        exact put_noU hr (zip_noU h2 (hr p old ho) hts)
      · simp only [Option.some.injEq] at h; subst h; exact put_noU hr hts
  | fact p args =>
    simp only [addItem, addFact] at h
    split at h
    · simp at h
    · simp only [Option.bind_eq_some_iff] at h
      obtain ⟨ts, h1, h⟩ := h
      have hts := resolve_noU h1
      split at h
      · next old ho =>
        split at h
        · simp only [Option.bind_eq_some_iff, Option.some.injEq] at h
          obtain ⟨n, h2, rfl⟩ := h
          exact put_noU hr (zip_noU h2 (hr p old ho) hts)
        · simp at h
      · simp only [Option.some.injEq] at h; subst h; exact put_noU hr hts
  | rule r =>
    simp only [addItem, addRule] at h
    split at h
    · simp at h
    · exact arities_noU h hr

theorem addItems_noU {env : Env} {items : List (Item F)} {rt : RT} (h : addItems env items = some rt) : NoURel rt := by
  have : ∀ (its : List (Item F)) (rt0 rt : RT), foldOpt (addItem env) rt0 its = some rt → NoURel rt0 → NoURel rt := by
    intro its
    induction its with
    | nil => intro rt0 rt h hr; simp only [foldOpt, Option.some.injEq] at h; subst h; exact hr
    | cons it its ih =>
      intro rt0 rt h hr
      simp only [foldOpt, Option.bind_eq_some_iff] at h
      obtain ⟨rt1, h1, h2⟩ := h
      exact ih _ _ h2 (addItem_noU h1 hr)
  exact this items _ rt h fun p tys h => by simp at h

theorem ctxs_noU (rs : List (TRule F)) : ∀ u ∈ allUnifs (ctxsOf rs), u.noU := by
  intro u hu
  simp only [allUnifs, List.mem_flatten, List.mem_map, ctxsOf] at hu
  obtain ⟨_, ⟨_, ⟨⟨r, i⟩, hr, rfl⟩, rfl⟩, hu⟩ := hu
  cases u <;> simp only [Unif.noU]
  obtain ⟨c, rfl⟩ := ctx_ofConst hu
  exact typeSet_noU c

/-! ## Declared constants -/

theorem loop_const {env : Env} {cs : List Ctx} {fuel : Nat} {st : ET × RT} {s : ET} {rt : RT} (h : loop env cs fuel st = .done s rt) :
    ConstInv env (allUnifs cs) s := by
  induction fuel generalizing st with
  | zero => simp [loop] at h
  | succ fuel ih =>
    simp only [loop] at h
    split at h
    · simp at h
    · simp at h
    · next st' hp =>
      split at h
      · simp only [LoopRes.done.injEq] at h
        obtain ⟨rfl, rfl⟩ := h
        exact rounds_establish hp
      · exact ih h

theorem infer_const {env : Env} {cs : List Ctx} {fuel : Nat} {rt0 rt : RT} {s : ET} (h : inferTypes env cs fuel rt0 = some (.ok (s, rt))) :
    ConstInv env (allUnifs cs) s := by
  simp only [inferTypes] at h
  split at h <;> simp only [Option.some.injEq, reduceCtorEq] at h
  next s1 rt1 hl => exact fun e ty he b hd => finals_keep h hd (loop_const hl e ty he b hd)

theorem typeProgram_ok {env : Env} {items : List (Item F)} {fuel : Nat} {s : ET} {rt : RT}
    (h : typeProgram env items fuel = some (.ok (s, rt))) :
    ∃ rt0, addItems env items = some rt0 ∧ inferTypes env (ctxsOf (rulesOf items)) fuel rt0 = some (.ok (s, rt)) := by
  unfold typeProgram at h
  split at h
  · simp at h
  · next rt0 h0 => exact ⟨rt0, h0, h⟩

/-! ## Results that give the same types to values -/

/-- Relations that occur in no rule keep their types. -/
def RelOut (cs : List Ctx) (rt0 rt : RT) : Prop := ∀ p, (∀ i, (p, i) ∉ relArgs cs) → rt p = rt0 p

theorem propRels_out {cs : List Ctx} {s : ET} {ps : List (String × Nat)} (hsub : ∀ x ∈ ps, x ∈ relArgs cs) {rt0 rt rt' : RT}
    (h : Res.foldl (propRel cs s) rt ps = .ok rt') (hr : RelOut cs rt0 rt) : RelOut cs rt0 rt' := by
  induction ps generalizing rt with
  | nil => simp only [Res.foldl, Res.ok_inj] at h; subst h; exact hr
  | cons x ps ih =>
    simp only [Res.foldl, Res.bind_ok] at h
    obtain ⟨rt1, h1, h2⟩ := h
    refine ih (fun y hy => hsub y (List.mem_cons_of_mem _ hy)) h2 ?_
    unfold propRel at h1
    split at h1
    · rw [Res.ok_inj] at h1; subst h1; exact hr
    · simp only [Res.bind_ok, Res.ofOption_ok] at h1
      obtain ⟨n, hn, h1⟩ := h1
      split at h1
      · rw [Res.ok_inj] at h1; subst h1; exact hr
      · split at h1
        · rw [Res.ok_inj] at h1; subst h1
          intro p hp
          have hne : p ≠ x.1 := by rintro rfl; exact hp x.2 (hsub x (List.mem_cons_self ..))
          simp only [if_neg hne]
          exact hr p hp
        · simp at h1

theorem finals_relOut {env : Env} {cs cs' : List Ctx} {st st' : ET × RT} {rt0 : RT}
    (h : Res.foldl (Ctx.final env cs) st cs' = .ok st') (hr : RelOut cs rt0 st.2) : RelOut cs rt0 st'.2 := by
  induction cs' generalizing st with
  | nil => simp only [Res.foldl, Res.ok_inj] at h; subst h; exact hr
  | cons c cs' ih =>
    simp only [Res.foldl, Res.bind_ok, Ctx.final, Res.ok_inj, Ctx.round] at h
    obtain ⟨_, ⟨_, ⟨s1, _, s2, _, rt, h3, rfl⟩, _, _, _, _, rfl⟩, h2⟩ := h
    exact ih h2 (propRels_out (fun _ h => h) h3 hr)

theorem settleTo_fixed {env : Env} {cs : List Ctx} {k : Nat} {st st' : ET × RT} (h : settleTo env cs k st = some st')
    (hc : ConstInv env (allUnifs cs) st.1) {s0 : ET} (hs : SameOut cs s0 st.1) {rt0 : RT} (hr : RelOut cs rt0 st.2) :
    Fixed env cs st'.1 st'.2 ∧ SameOut cs s0 st'.1 ∧ RelOut cs rt0 st'.2 := by
  induction k generalizing st with
  | zero =>
    simp only [settleTo] at h
    split at h
    · next st1 hf =>
      split at h
      · next hu =>
        simp only [Option.some.injEq] at h
        subst h
        exact ⟨fixed_of_unchanged hc hf hu, hs, hr⟩
      · simp at h
    · simp at h
  | succ k ih =>
    simp only [settleTo] at h
    split at h
    · next st1 hf =>
      exact ih h (fun e ty he b hd => finals_keep hf hd (hc e ty he b hd)) (finals_out (fun _ h => h) hf hs) (finals_relOut hf hr)
    · simp at h

/-- Results that give the same types to values. -/
structure Alike (s s' : ET) (rt rt' : RT) : Prop where
  loc : ∀ l, (s l).map TSet.default = (s' l).map TSet.default
  rel : ∀ p, (rt p).map (List.map TSet.default) = (rt' p).map (List.map TSet.default)

theorem Alike.symm {s s' : ET} {rt rt' : RT} (h : Alike s s' rt rt') : Alike s' s rt' rt := ⟨fun l => (h.loc l).symm, fun p => (h.rel p).symm⟩

theorem Alike.get {s s' : ET} {rt rt' : RT} (h : Alike s s' rt rt') {l : Loc} {t : TSet} (hl : s l = some t) :
    ∃ t', s' l = some t' ∧ t'.default = t.default := by
  have := h.loc l
  rw [hl] at this
  cases h' : s' l with
  | none => rw [h'] at this; simp at this
  | some t' => rw [h'] at this; simp at this; exact ⟨t', rfl, this.symm⟩

theorem Alike.col {s s' : ET} {rt rt' : RT} (h : Alike s s' rt rt') {p : String} {tys : List TSet} (hp : rt p = some tys) :
    ∃ tys', rt' p = some tys' ∧ ∀ (k : Nat) t, tys[k]? = some t → ∃ t', tys'[k]? = some t' ∧ t'.default = t.default := by
  have := h.rel p
  rw [hp] at this
  cases h' : rt' p with
  | none => rw [h'] at this; simp at this
  | some tys' =>
    rw [h'] at this
    simp only [Option.map_some, Option.some.injEq] at this
    refine ⟨tys', rfl, fun k t hk => ?_⟩
    have e := congrArg (fun l => l[k]?) this
    simp only [List.getElem?_map, hk, Option.map_some] at e
    cases h2 : tys'[k]? with
    | none => rw [h2] at e; simp at e
    | some t' => rw [h2] at e; simp at e; exact ⟨t', rfl, e.symm⟩

section
variable {X : Ext F} {ofInt : FloatTy → Int → F} {toF : FloatTy → F → F} {env : Env} {s s' : ET} {rt rt' : RT} (ha : Alike s s' rt rt')
include ha

theorem eval_alike {ρ : String → Option (Val F)} {l : Loc} {e : TExpr F} {v : Val F} (h : Eval X ofInt toF s ρ l e v) :
    Eval X ofInt toF s' ρ l e v := by
  induction h with
  | const h1 h2 =>
    obtain ⟨t', g1, g2⟩ := ha.get h1
    exact .const g1 (by rw [g2]; exact h2)
  | var h => exact .var h
  | bin _ _ h ih1 ih2 => exact .bin ih1 ih2 h
  | un _ h ih => exact .un ih h
  | iteT _ _ ih1 ih2 => exact .iteT ih1 ih2
  | iteF _ _ ih1 ih2 => exact .iteF ih1 ih2
  | call hl _ h ih => exact .call hl ih h
  | new hl _ ih => exact .new hl ih

theorem typeErr_alike {ρ : String → Option (Val F)} {l : Loc} {e : TExpr F} (h : TypeErr X ofInt toF env s ρ l e) :
    TypeErr X ofInt toF env s' ρ l e := by
  induction h with
  | lit h1 h2 =>
    obtain ⟨t', g1, g2⟩ := ha.get h1
    exact .lit g1 (by rw [g2]; exact h2)
  | left _ ih => exact .left ih
  | right _ ih => exact .right ih
  | bin h1 h2 h3 => exact .bin (eval_alike ha h1) (eval_alike ha h2) h3
  | operand _ ih => exact .operand ih
  | un h1 h2 => exact .un (eval_alike ha h1) h2
  | cond _ ih => exact .cond ih
  | notBool h1 h2 => exact .notBool (eval_alike ha h1) h2
  | thn _ ih => exact .thn ih
  | els _ ih => exact .els ih
  | arg hk _ ih => exact .arg hk ih
  | call hl h hf hn => exact .call hl (fun k e w h1 h2 => eval_alike ha (h k e w h1 h2)) hf hn
  | entityArg hk _ ih => exact .entityArg hk ih

theorem supp_alike {D D' : String → List (Val F) → Prop} (hD : ∀ p vs, D p vs → D' p vs) {r : TRule F} {i : Nat} {x : String} {v : Val F}
    (h : Supp X ofInt toF s D r i x v) : Supp X ofInt toF s' D' r i x v := by
  induction h with
  | atom h1 h2 h3 h4 => exact .atom h1 h2 (hD _ _ h3) h4
  | eqLeft h1 _ h3 ih => exact .eqLeft h1 ih (eval_alike ha h3)
  | eqRight h1 _ h3 ih => exact .eqRight h1 ih (eval_alike ha h3)

theorem step_alike {items : List (Item F)} {O D D' : String → List (Val F) → Prop} (hD : ∀ p vs, D p vs → D' p vs) {p : String}
    {vs : List (Val F)} (h : Step X ofInt toF env s items rt O D p vs) : Step X ofInt toF env s' items rt' O D' p vs := by
  cases h with
  | fact h1 h2 h3 h4 =>
    obtain ⟨tys', g1, g2⟩ := ha.col h2
    refine .fact h1 g1 h3 fun k c v hk hv => ?_
    obtain ⟨t, k1, k2⟩ := h4 k c v hk hv
    obtain ⟨t', k3, k4⟩ := g2 k t k1
    exact ⟨t', k3, by rw [k4]; exact k2⟩
  | foreign h1 h2 => exact .foreign h1 h2
  | rule h1 h2 h3 h4 h5 h6 h7 =>
    refine .rule h1 h2 (fun x v hx => supp_alike ha hD (h3 x v hx)) (fun k b hk => ?_) (fun k e hk => eval_alike ha (h5 k e hk)) h6
      fun m e v hm hv => eval_alike ha (h7 m e v hm hv)
    obtain ⟨ws, g1, g2, g3⟩ := h4 k b hk
    exact ⟨ws, hD _ _ g1, g2, fun m e w hm hw => (g3 m e w hm hw).imp id (eval_alike ha)⟩

theorem derived_alike {items : List (Item F)} {O : String → List (Val F) → Prop} {n : Nat} {p : String} {vs : List (Val F)}
    (h : DerivedIn X ofInt toF env s items rt O n p vs) : DerivedIn X ofInt toF env s' items rt' O n p vs := by
  induction n generalizing p vs with
  | zero => exact h.elim
  | succ n ih => exact step_alike ha (fun _ _ h => ih h) h

theorem typed_alike {p : String} {vs : List (Val F)} (h : Typed env rt p vs) : Typed env rt' p vs := by
  unfold Typed at *
  split at h
  · exact h
  · intro k v hv
    obtain ⟨tys, t, h1, h2, h3⟩ := h k v hv
    obtain ⟨tys', g1, g2⟩ := ha.col h1
    obtain ⟨t', g3, g4⟩ := g2 k t h2
    exact ⟨tys', t', g1, g3, by rw [g4]; exact h3⟩

theorem supported_alike {u : Unif} (h : u.supported env s = true) : u.supported env s' = true := by
  have key : ∀ (l : Loc) (f : VTy → Bool), ((s l).all fun t => f t.default) = true → ((s' l).all fun t => f t.default) = true := by
    intro l f h
    cases h' : s' l with
    | none => rfl
    | some t' =>
      obtain ⟨t, g1, g2⟩ := ha.symm.get h'
      rw [g1] at h
      simpa [g2] using h
  unfold Unif.supported at *
  split at h
  · next e _ =>
    simp only [bne_iff_ne, ne_eq] at h ⊢
    intro hs
    obtain ⟨t, g1, g2⟩ := ha.symm.get hs
    refine h (g1.trans ?_)
    cases t <;> simp [TSet.default] at g2 ⊢
    exact g2
  · exact key _ (fun t => t.isInt) h
  · exact key _ (fun t => t.isSigned || t.isFloat) h
  · exact key _ (fun t => (env.types _).all fun b => castCase t b) h
  · rfl

end

/-- A settled result gives the types of a fixed point to values. -/
theorem settled_fixed {env : Env} {items : List (Item F)} {fuel k : Nat} {s : ET} {rt : RT}
    (h : typeProgram env items fuel = some (.ok (s, rt))) (hs : settled env (ctxsOf (rulesOf items)) k (s, rt) = true) :
    ∃ s' rt', Fixed env (ctxsOf (rulesOf items)) s' rt' ∧ Alike s s' rt rt' := by
  obtain ⟨rt0, _, h1⟩ := typeProgram_ok h
  unfold settled at hs
  split at hs
  · next st' hf =>
    obtain ⟨g1, g2, g3⟩ := settleTo_fixed (s0 := s) (rt0 := rt) hf (infer_const h1) (fun _ _ => rfl) (fun _ _ => rfl)
    refine ⟨st'.1, st'.2, g1, ?_, ?_⟩
    · intro l
      by_cases hl : l ∈ allLocs (ctxsOf (rulesOf items))
      · simp only [sameValues, Bool.and_eq_true, List.all_eq_true, decide_eq_true_eq] at hs
        exact hs.1 l hl
      · rw [g2 l hl]
    · intro p
      by_cases hp : ∃ i, (p, i) ∈ relArgs (ctxsOf (rulesOf items))
      · obtain ⟨i, hp⟩ := hp
        simp only [sameValues, Bool.and_eq_true, List.all_eq_true, decide_eq_true_eq] at hs
        exact hs.2 (p, i) hp
      · rw [g3 p fun i hi => hp ⟨i, hi⟩]
  · simp at hs

theorem supported_unif {env : Env} {cs : List Ctx} {s : ET} (h : supported env cs s = true) {c : Ctx} (hc : c ∈ cs) :
    ∀ u ∈ c.unifs, u.supported env s = true := by
  intro u hu
  simp only [supported, List.all_eq_true] at h
  exact h c hc u hu

theorem exprAt_unifs {r : TRule F} {i : Nat} {l : Loc} {e : TExpr F} (h : ExprAt r i l e) : ∀ u ∈ e.unifs l, u ∈ (r.ctx i).unifs := by
  intro u hu
  obtain ⟨j, ⟨a, m, ha, hm, rfl⟩ | ⟨hc, rfl⟩⟩ := h
  · have hu' : u ∈ TExpr.unifsList [j, i] 0 a.args := mem_unifsList (i := 0) hm (by simpa using hu)
    rcases ha with ha | ha
    · exact lit_at ha (by simp only [TLit.unifs, TAtom.unifs, List.mem_append]; exact Or.inr hu')
    · exact lit_at ha (by simp only [TLit.unifs, TAtom.unifs, List.mem_append]; exact Or.inr hu')
  · exact lit_at hc hu

/-- The parts of an expression contribute their unifications. -/
theorem subAt_unifs {l m : Loc} {e a : TExpr F} (h : SubAt l e m a) {u : Unif} (hu : u ∈ a.unifs m) : u ∈ e.unifs l := by
  induction h with
  | self => exact hu
  | left _ ih | right _ ih | operand _ ih | cond _ ih | thn _ ih | els _ ih => exact ih (by simp [TExpr.unifs, hu])
  | arg _ hk ih | entityArg _ hk ih =>
    refine ih ?_
    simp only [TExpr.unifs, List.mem_cons]
    exact Or.inr (mem_unifsList (i := 0) hk (by simpa using hu))

/-- What the check of casts ensures. -/
theorem checkCast_ok {env : Env} {c : Ctx} {s : ET} (h : c.checkCast env s = .ok ()) {n : String} {a e : Loc}
    (hl : Unif.un (.cast n) a e ∈ c.unifs) : ∃ b t, env.types n = some b ∧ s a = some t ∧ t.canCast b = true := by
  unfold Ctx.checkCast at h
  generalize c.unifs = us at h hl
  induction us with
  | nil => simp at hl
  | cons x xs ih =>
    simp only [Res.foldl, Res.bind_ok] at h
    obtain ⟨_, h1, h2⟩ := h
    rcases List.mem_cons.1 hl with rfl | hl
    · simp only at h1
      split at h1
      · next b t hb ht =>
        split at h1
        · next hc => exact ⟨b, t, hb, ht, hc⟩
        · simp at h1
      · simp at h1
    · exact ih h2 hl

theorem canCast_default {t : TSet} {b : VTy} (h : t.canCast b = true) : CastAllowed t.default b := by
  unfold CastAllowed
  cases t with
  | base a =>
    cases a <;> cases b <;> simp_all [TSet.canCast, VTy.canCast, TSet.default, VTy.isNumeric, VTy.isInt, VTy.isFloat, VTy.isString]
  | _ => cases b <;> simp_all [TSet.canCast, VTy.canCast, TSet.default, VTy.isNumeric, VTy.isInt, VTy.isFloat, VTy.isString]

theorem checkConstraint_ok {c : Ctx} {s : ET} (h : c.checkConstraint s = .ok ()) {l : Loc} (hl : l ∈ c.constraints) :
    s l = some (.base .bool) := by
  unfold Ctx.checkConstraint at h
  generalize c.constraints = ls at h hl
  induction ls with
  | nil => simp at hl
  | cons a as ih =>
    simp only [Res.foldl, Res.bind_ok] at h
    obtain ⟨_, h1, h2⟩ := h
    rcases List.mem_cons.1 hl with rfl | hl
    · split at h1
      · next t ht =>
        split at h1
        · next hb =>
          cases t <;> simp only [TSet.isBoolean, Bool.false_eq_true] at hb
          next b => cases b <;> simp at hb; exact ht
        · simp at h1
      · simp at h1
    · exact ih h2 hl

theorem constraint_mem {r : TRule F} {i j : Nat} {e : TExpr F} (h : r.lits[j]? = some (.constraint e)) : [0, j, i] ∈ (r.ctx i).constraints := by
  simp only [TRule.ctx, List.mem_filterMap]
  exact ⟨(.constraint e, j), List.mem_zipIdx_iff_getElem?.2 h, rfl⟩

/-! ## Columns of facts -/

theorem fact_length {env : Env} {items : List (Item F)} {rt : RT} (h : addItems env items = some rt) {p : String}
    {args : List (Const F × Option String)} (hf : Item.fact p args ∈ items)
    (hd : ∀ tys, Item.decl p tys ∈ items → tys.length = args.length) {tys : List TSet} (hr : rt p = some tys) : tys.length = args.length := by
  obtain ⟨pre, post, rfl⟩ := List.append_of_mem hf
  simp only [addItems, foldOpt_append, Option.bind_eq_some_iff, foldOpt] at h
  obtain ⟨rt1, h1, rt2, h2, h3⟩ := h
  have key : ∃ tys, rt2 p = some tys ∧ tys.length = args.length := by
    simp only [addItem, addFact] at h2
    split at h2
    · simp at h2
    · simp only [Option.bind_eq_some_iff] at h2
      obtain ⟨cur, g1, h2⟩ := h2
      have hl := (collect_some g1).1
      split at h2
      · split at h2
        · next he =>
          simp only [Option.bind_eq_some_iff, Option.some.injEq] at h2
          obtain ⟨n, g2, rfl⟩ := h2
          refine ⟨n, put_self, ?_⟩
          rw [(collect_some g2).1, List.length_zip, ← he, hl, Nat.min_self]
        · simp at h2
      · simp only [Option.some.injEq] at h2; subst h2
        exact ⟨cur, put_self, hl⟩
  have step : ∀ (its : List (Item F)) (a b : RT), (∀ tys, Item.decl p tys ∈ its → tys.length = args.length) →
      foldOpt (addItem env) a its = some b → (∃ tys, a p = some tys ∧ tys.length = args.length) → ∃ tys, b p = some tys ∧ tys.length = args.length := by
    intro its
    induction its with
    | nil => intro a b _ h ha; simp only [foldOpt, Option.some.injEq] at h; subst h; exact ha
    | cons it its ih =>
      intro a b hd h ha
      simp only [foldOpt, Option.bind_eq_some_iff] at h
      obtain ⟨c, h1, h2⟩ := h
      refine ih c b (fun tys ht => hd tys (List.mem_cons_of_mem _ ht)) h2 ?_
      obtain ⟨old, ho, hl⟩ := ha
      by_cases hdec : it.declares p
      · cases it with
        | decl q qtys =>
          simp only [Item.declares] at hdec
          subst hdec
          simp only [addItem] at h1
          split at h1
          · simp at h1
          · simp only [addDecl, Option.bind_eq_some_iff] at h1
            obtain ⟨ts, g1, h1⟩ := h1
            rw [ho] at h1
            simp only [Option.bind_eq_some_iff, Option.some.injEq] at h1
            obtain ⟨n, g2, rfl⟩ := h1
            refine ⟨n, put_self, ?_⟩
            rw [(collect_some g2).1, List.length_zip, (collect_some g1).1, hd qtys (List.mem_cons_self ..), hl, Nat.min_self]
        | fact q a => exact hdec.elim
        | rule r => exact hdec.elim
      · obtain ⟨tys', g1, g2⟩ := addItem_len hdec h1 ho
        exact ⟨tys', g1, g2.trans hl⟩
  obtain ⟨tys', g1, g2⟩ := step post rt2 rt (fun tys ht => hd tys (by simp [ht])) h3 key
  rw [hr] at g1
  simp only [Option.some.injEq] at g1
  rw [g1, g2]

/-- The arguments of atoms are what the unifications of the kind `arg` are about. -/
theorem arg_at {r : TRule F} {i : Nat} {e : Loc} {p : String} {m : Nat} (h : Unif.arg e p m ∈ (r.ctx i).unifs) :
    ∃ (j : Nat) (a : TAtom F), (r.lits[j]? = some (.pos a) ∨ r.lits[j]? = some (.neg a)) ∧ a.pred = p ∧ m < a.args.length ∧ e = [m, j, i] := by
  have noArg : ∀ (e : TExpr F) (l e' : Loc) (p : String) (m : Nat), Unif.arg e' p m ∉ e.unifs l := by
    intro e
    refine TExpr.rec (motive_1 := fun e => ∀ (l e' : Loc) (p : String) (m : Nat), Unif.arg e' p m ∉ e.unifs l)
      (motive_2 := fun es => ∀ (l : Loc) (i : Nat) (e' : Loc) (p : String) (m : Nat), Unif.arg e' p m ∉ TExpr.unifsList l i es)
      ?_ ?_ ?_ ?_ ?_ ?_ ?_ ?_ ?_ ?_ e
    all_goals intros
    all_goals simp_all [TExpr.unifs, TExpr.unifsList]
  have noArgs : ∀ (es : List (TExpr F)) (l : Loc) (i : Nat) (e' : Loc) (p : String) (m : Nat), Unif.arg e' p m ∉ TExpr.unifsList l i es := by
    intro es
    induction es with
    | nil => intros; simp [TExpr.unifsList]
    | cons x xs ih => intro l i e' p m; simp only [TExpr.unifsList, List.mem_append, not_or]; exact ⟨noArg _ _ _ _ _, ih _ _ _ _ _⟩
  obtain ⟨j, a, hj, h⟩ := ctx_unifs.1 h
  have hat : ∀ a : TAtom F, Unif.arg e p m ∈ a.unifs [j, i] → a.pred = p ∧ m < a.args.length ∧ e = [m, j, i] := by
    intro a h
    simp only [TAtom.unifs, List.mem_append, List.mem_map] at h
    rcases h with ⟨k, hk, h⟩ | h
    · simp only [Unif.arg.injEq] at h
      obtain ⟨rfl, rfl, rfl⟩ := h
      exact ⟨rfl, List.mem_range.1 hk, rfl⟩
    · exact (noArgs _ _ _ _ _ _ h).elim
  cases a with
  | pos a => exact ⟨j, a, Or.inl hj, hat a h⟩
  | neg a => exact ⟨j, a, Or.inr hj, hat a h⟩
  | constraint x => exact (noArg _ _ _ _ _ h).elim

theorem at_arg {r : TRule F} {i j : Nat} {a : TAtom F} (h : r.lits[j]? = some (.pos a) ∨ r.lits[j]? = some (.neg a)) {m : Nat}
    (hm : m < a.args.length) : Unif.arg [m, j, i] a.pred m ∈ (r.ctx i).unifs := by
  have : Unif.arg [m, j, i] a.pred m ∈ a.unifs [j, i] := by
    simp only [TAtom.unifs, List.mem_append, List.mem_map, List.mem_range]
    exact Or.inl ⟨m, hm, rfl⟩
  rcases h with h | h
  · exact lit_at h this
  · exact lit_at h this

end Scallop.Ty
