import Verif.Spec.ContextState

/-!
# Lemmas for restoring contexts
-/

namespace Scallop.CtxState

theorem lastDisj_shift (i s : Nat) : ∀ (ds : List (List Nat)) (c : Nat), lastDisj i ds (c + s) = (lastDisj i ds c).map (· + s)
  | [], c => rfl
  | d :: ds, c => by
    have h := lastDisj_shift i s ds (c + 1)
    have e : c + s + 1 = c + 1 + s := by omega
    rw [lastDisj, lastDisj, e, h]
    cases lastDisj i ds (c + 1) with
    | some n => rfl
    | none => by_cases hd : d.contains i = true <;> simp [hd]

theorem mapM_map_comm {α β : Type} (f f' : α → Option β) (g : β → β) (h : ∀ x, f' x = (f x).map g) : ∀ l : List α, l.mapM f' = (l.mapM f).map (List.map g)
  | [] => rfl
  | x :: l => by
    simp only [List.mapM_cons, h, mapM_map_comm f f' g h l]
    cases f x with
    | none => rfl
    | some y => cases l.mapM f <;> rfl

theorem factsOf_shift (prov : String) (np sg : Bool) (c s : Nat) (elems : List V) (disj : List (List Nat)) :
    factsOf prov np sg (c + s) elems disj = (factsOf prov np sg c elems disj).map (List.map (shiftFact s)) := by
  simp only [factsOf]
  generalize (if (np && requiresTag prov) = true then elems.map (fun t => V.tup [.none, t]) else elems) = es
  split
  · rfl
  · apply mapM_map_comm
    rintro ⟨e, i⟩
    simp only [lastDisj_shift]
    by_cases ht : requiresTag prov = true
    · simp only [ht, if_true]
      cases pairOf e with
      | none => rfl
      | some p => by_cases hs : supports prov = true <;> simp [hs, shiftFact]
    · by_cases hs : supports prov = true <;> simp [ht, hs, shiftFact]

/-- The state `d` of the replay that belongs to the state `c` of the first run, which ends in `F`. -/
structure Sim (F c d : Ctx) : Prop where
  prov : d.prov = c.prov
  k : d.k = c.k
  wmc : d.wmc = c.wmc
  trainK : d.trainK = c.trainK
  testK : d.testK = c.testK
  mons : d.mons = c.mons
  counter : d.counter = c.counter + F.counter
  history : d.history = c.history
  internal : d.internal = ⟨c.internal.args, (c.internal.log.filter isProgram).map (shiftOp F.counter)⟩
  mappings : ∀ r, d.mappings r = match c.mappings r with | some m => some m | none => F.mappings r
  retain : ∀ r, d.retain r = match c.retain r with | some m => some m | none => F.retain r
  nonProb : ∀ r, d.nonProb r = (c.nonProb r || F.nonProb r)
  single : ∀ r, d.single r = (c.single r || F.single r)

theorem sim_log {F c d : Ctx} (h : Sim F c d) (op : IOp) (hp : isProgram op = true) :
    (⟨d.internal.args, d.internal.log ++ [shiftOp F.counter op]⟩ : Internal) =
      ⟨c.internal.args, ((c.internal.log ++ [op]).filter isProgram).map (shiftOp F.counter)⟩ := by
  rw [h.internal]
  simp [List.filter_append, hp]

theorem sim_send {F c d : Ctx} (w : World) (h : Sim F c d) (a : Act) (op : IOp) (hp : isProgram op = true) (hs : shiftOp F.counter op = op)
    (hok : w.ok c.internal op = true) (hind : Independent w c.internal.args F.counter) :
    ∃ d1, send w op { d with history := d.history ++ [a] } = (d1, true) ∧ Sim F (send w op { c with history := c.history ++ [a] }).1 d1 := by
  refine ⟨_, Prod.ext rfl ?_, ?_⟩
  · have := hind.1 c.internal.log op hp hok
    rw [hs] at this
    simp only [send]
    rw [h.internal]
    exact this
  · have hl := sim_log h op hp
    rw [hs] at hl
    exact { prov := h.prov, k := h.k, wmc := h.wmc, trainK := h.trainK, testK := h.testK, mons := h.mons, counter := h.counter,
            history := by simp [send, h.history], internal := hl, mappings := h.mappings, retain := h.retain, nonProb := h.nonProb, single := h.single }

theorem step_act {F c d c1 : Ctx} (w : World) (a : Act) (hc : call w a c = (c1, true)) (h : Sim F c d)
    (hf : ∀ rel elems dj, a = .facts rel elems dj → F.nonProb rel = c.nonProb rel ∧ F.single rel = c.single rel)
    (hind : Independent w c.internal.args F.counter) : ∃ d1, call w a d = (d1, true) ∧ Sim F c1 d1 := by
  have simple : ∀ op, isProgram op = true → shiftOp F.counter op = op → perform w a = send w op → ∃ d1, call w a d = (d1, true) ∧ Sim F c1 d1 := by
    intro op hp hs he
    rw [call, he] at hc
    have hok : w.ok c.internal op = true := congrArg Prod.snd hc
    obtain ⟨d1, h1, h2⟩ := sim_send w h a op hp hs hok hind
    refine ⟨d1, by rw [call, he]; exact h1, ?_⟩
    rw [hc] at h2
    exact h2
  cases a with
  | importFile s => exact simple (.importFile s) rfl rfl rfl
  | program s => exact simple (.program s) rfl rfl rfl
  | item s => exact simple (.item s) rfl rfl rfl
  | register s => exact simple (.register s) rfl rfl rfl
  | rule s => exact simple (.rule s) rfl rfl rfl
  | compile => exact simple .compile rfl rfl rfl
  | facts rel elems dj =>
    obtain ⟨hn, hs⟩ := hf rel elems dj rfl
    have hdn : d.nonProb rel = c.nonProb rel := by rw [h.nonProb, hn, Bool.or_self]
    have hds : d.single rel = c.single rel := by rw [h.single, hs, Bool.or_self]
    simp only [call, perform] at hc
    cases hfs : factsOf c.prov (c.nonProb rel) (c.single rel) c.counter elems dj with
    | none => rw [hfs] at hc; simp at hc
    | some fs =>
      rw [hfs] at hc
      simp only [send, Prod.mk.injEq] at hc
      obtain ⟨hc1, hok⟩ := hc
      have hfd : factsOf d.prov (d.nonProb rel) (d.single rel) d.counter elems dj = some (fs.map (shiftFact F.counter)) := by
        rw [h.prov, hdn, hds, h.counter, factsOf_shift, hfs]
        rfl
      have hok' := hind.1 c.internal.log (.facts rel fs) rfl hok
      refine ⟨{ d with history := d.history ++ [.facts rel elems dj], counter := if supports d.prov then d.counter + dj.length else d.counter,
                       internal := ⟨d.internal.args, d.internal.log ++ [.facts rel (fs.map (shiftFact F.counter))]⟩ }, ?_, ?_⟩
      · simp only [call, perform, hfd, send, Prod.mk.injEq, true_and]
        rw [h.internal]
        exact hok'
      · subst hc1
        have hl := sim_log h (.facts rel fs) rfl
        exact { prov := h.prov, k := h.k, wmc := h.wmc, trainK := h.trainK, testK := h.testK, mons := h.mons,
                counter := by
                  simp only [h.prov, h.counter]
                  split <;> omega
                history := by simp [h.history], internal := hl, mappings := h.mappings, retain := h.retain, nonProb := h.nonProb, single := h.single }
  | relation name decl single mapping retain nonProb =>
    simp only [call, perform, send] at hc
    by_cases hok : w.ok c.internal (.relation name decl) = true
    · simp only [hok, Bool.not_true, Bool.false_eq_true, if_false] at hc
      have hok' := hind.1 c.internal.log (.relation name decl) rfl hok
      have hl := sim_log h (.relation name decl) rfl
      by_cases hm : mappingFits w ⟨c.internal.args, c.internal.log ++ [.relation name decl]⟩ name mapping = true
      · simp only [hm, Bool.not_true, Bool.false_eq_true, if_false, Prod.mk.injEq, and_true] at hc
        have hm' : mappingFits w ⟨d.internal.args, d.internal.log ++ [.relation name decl]⟩ name mapping = true := by
          cases mapping with
          | none => rfl
          | some m =>
            have := hind.2 _ _ _ hm
            have e : (⟨d.internal.args, d.internal.log ++ [.relation name decl]⟩ : Internal) =
              ⟨c.internal.args, ((c.internal.log ++ [IOp.relation name decl]).filter isProgram).map (shiftOp F.counter)⟩ := hl
            simp only [mappingFits]
            rw [e]
            exact this
        have hokd : w.ok d.internal (.relation name decl) = true := by rw [h.internal]; exact hok'
        refine ⟨{ d with
            history := d.history ++ [.relation name decl single mapping retain nonProb]
            internal := ⟨d.internal.args, d.internal.log ++ [.relation name decl]⟩
            mappings := updOpt d.mappings name mapping
            retain := updOpt d.retain name retain
            nonProb := if nonProb then upd d.nonProb name true else d.nonProb
            single := if single then upd d.single name true else d.single }, ?_, ?_⟩
        · simp only [call, perform, send, hokd, hm', Bool.not_true, Bool.false_eq_true, if_false]
        · subst hc
          refine { prov := h.prov, k := h.k, wmc := h.wmc, trainK := h.trainK, testK := h.testK, mons := h.mons, counter := h.counter,
                   history := by simp [h.history], internal := hl, mappings := ?_, retain := ?_, nonProb := ?_, single := ?_ }
          · intro r
            cases mapping with
            | none => exact h.mappings r
            | some m =>
              simp only [updOpt, upd]
              by_cases hr : r = name
              · simp [hr]
              · simp only [hr, if_false]; exact h.mappings r
          · intro r
            cases retain with
            | none => exact h.retain r
            | some m =>
              simp only [updOpt, upd]
              by_cases hr : r = name
              · simp [hr]
              · simp only [hr, if_false]; exact h.retain r
          · intro r
            cases nonProb with
            | false => exact h.nonProb r
            | true =>
              simp only [upd, if_true]
              by_cases hr : r = name
              · simp [hr]
              · simp only [hr, if_false]; exact h.nonProb r
          · intro r
            cases single with
            | false => exact h.single r
            | true =>
              simp only [upd, if_true]
              by_cases hr : r = name
              · simp [hr]
              · simp only [hr, if_false]; exact h.single r
      · have : mappingFits w ⟨c.internal.args, c.internal.log ++ [.relation name decl]⟩ name mapping = false := by simpa using hm
        simp [this] at hc
    · have : w.ok c.internal (.relation name decl) = false := by simpa using hok
      simp [this] at hc

/-- A call that does not declare a relation leaves its flags. -/
theorem act_flags (w : World) (a : Act) (c : Ctx) (r : String) (hd : ¬ Declares r (.act a)) :
    (call w a c).1.nonProb r = c.nonProb r ∧ (call w a c).1.single r = c.single r := by
  cases a with
  | facts rel elems dj =>
    simp only [call, perform]
    split <;> simp [send]
  | relation name decl single mapping retain nonProb =>
    have hr : r ≠ name := by rintro rfl; exact hd ⟨_, _, _, _, _, rfl⟩
    cases hok : w.ok c.internal (.relation name decl) <;> cases hm : mappingFits w ⟨c.internal.args, c.internal.log ++ [.relation name decl]⟩ name mapping <;>
      cases nonProb <;> cases single <;> simp [call, perform, send, hok, hm, upd, hr]
  | _ => simp [call, perform, send]

/-- What the settings other than those of relations change. -/
theorem setting_sim {F c d c1 : Ctx} (w : World) (s : Setting) (hs : (∀ r b, s ≠ .nonProb r b) ∧ ∀ r m, s ≠ .mapping r m)
    (hc : setting w s c = (c1, true)) : (Sim F c d → Sim F c1 d) ∧ (∀ r, c1.nonProb r = c.nonProb r ∧ c1.single r = c.single r) ∧ c1.history = c.history ∧
      c1.internal.args = c.internal.args := by
  have simple : ∀ op, isProgram op = false → send w op c = (c1, true) → (Sim F c d → Sim F c1 d) ∧ (∀ r, c1.nonProb r = c.nonProb r ∧ c1.single r = c.single r) ∧
      c1.history = c.history ∧ c1.internal.args = c.internal.args := by
    intro op hp he
    have hc1 : c1 = (send w op c).1 := by rw [he]
    subst hc1
    refine ⟨fun h => ?_, fun r => ⟨rfl, rfl⟩, rfl, rfl⟩
    exact { prov := h.prov, k := h.k, wmc := h.wmc, trainK := h.trainK, testK := h.testK, mons := h.mons, counter := h.counter, history := h.history,
            internal := by simpa [send, List.filter_append, hp] using h.internal, mappings := h.mappings, retain := h.retain, nonProb := h.nonProb, single := h.single }
  cases s with
  | nonProb r b => exact absurd rfl (hs.1 r b)
  | mapping r m => exact absurd rfl (hs.2 r m)
  | earlyDiscard b => exact simple _ rfl hc
  | iterLimit n => exact simple _ rfl hc
  | run => exact simple _ rfl hc
  | training b =>
    simp only [setting] at hc
    cases hk : kFor c b with
    | none =>
      rw [hk] at hc
      simp only [Prod.mk.injEq, and_true] at hc
      subst hc
      exact ⟨id, fun r => ⟨rfl, rfl⟩, rfl, rfl⟩
    | some o =>
      rw [hk] at hc
      cases o with
      | none => simp at hc
      | some k => exact simple _ rfl hc

theorem run_flags (w : World) (r : String) : ∀ (calls : List Call) (c F : Ctx), runAll w calls c = some F →
    (∀ x ∈ calls, (∀ r b, x ≠ .set (.nonProb r b)) ∧ ∀ r m, x ≠ .set (.mapping r m)) → (∀ x ∈ calls, ¬ Declares r x) →
    F.nonProb r = c.nonProb r ∧ F.single r = c.single r
  | [], c, F, h, _, _ => by
    simp only [runAll, Option.some.injEq] at h
    subst h
    exact ⟨rfl, rfl⟩
  | .act a :: l, c, F, h, hs, hd => by
    simp only [runAll] at h
    cases hc : call w a c with
    | mk c1 b =>
      rw [hc] at h
      cases b with
      | false => cases h
      | true =>
        have h1 := run_flags w r l c1 F h (fun x hx => hs x (List.mem_cons_of_mem _ hx)) (fun x hx => hd x (List.mem_cons_of_mem _ hx))
        have h2 := act_flags w a c r (hd _ (by simp))
        rw [hc] at h2
        exact ⟨h1.1.trans h2.1, h1.2.trans h2.2⟩
  | .set s :: l, c, F, h, hs, hd => by
    simp only [runAll] at h
    cases hc : setting w s c with
    | mk c1 b =>
      rw [hc] at h
      cases b with
      | false => cases h
      | true =>
        have h1 := run_flags w r l c1 F h (fun x hx => hs x (List.mem_cons_of_mem _ hx)) (fun x hx => hd x (List.mem_cons_of_mem _ hx))
        have hs' := hs _ (List.mem_cons_self (a := Call.set s) (l := l))
        have h2 := (setting_sim (F := F) (d := F) w s ⟨fun r b e => hs'.1 r b (by rw [e]), fun r m e => hs'.2 r m (by rw [e])⟩ hc).2.1 r
        exact ⟨h1.1.trans h2.1, h1.2.trans h2.2⟩

/-- The recorded calls. -/
def acts : List Call → List Act
  | [] => []
  | .act a :: l => a :: acts l
  | .set _ :: l => acts l

theorem call_history (w : World) (a : Act) (c : Ctx) : (call w a c).1.history = c.history ++ [a] ∧ (call w a c).1.internal.args = c.internal.args := by
  cases a with
  | facts rel elems dj =>
    simp only [call, perform]
    split <;> simp [send]
  | relation name decl single mapping retain nonProb =>
    cases hok : w.ok c.internal (.relation name decl) <;> cases hm : mappingFits w ⟨c.internal.args, c.internal.log ++ [.relation name decl]⟩ name mapping <;> simp [call, perform, send, hok, hm]
  | _ => simp [call, perform, send]

theorem run_history (w : World) : ∀ (calls : List Call) (c F : Ctx), runAll w calls c = some F →
    (∀ x ∈ calls, (∀ r b, x ≠ .set (.nonProb r b)) ∧ ∀ r m, x ≠ .set (.mapping r m)) → F.history = c.history ++ acts calls
  | [], c, F, h, _ => by
    simp only [runAll, Option.some.injEq] at h
    subst h
    simp [acts]
  | .act a :: l, c, F, h, hs => by
    simp only [runAll] at h
    cases hc : call w a c with
    | mk c1 b =>
      rw [hc] at h
      cases b with
      | false => cases h
      | true =>
        have h2 := (call_history w a c).1
        rw [hc] at h2
        rw [run_history w l c1 F h (fun x hx => hs x (List.mem_cons_of_mem _ hx)), h2]
        simp [acts]
  | .set s :: l, c, F, h, hs => by
    simp only [runAll] at h
    cases hc : setting w s c with
    | mk c1 b =>
      rw [hc] at h
      cases b with
      | false => cases h
      | true =>
        have hs' := hs _ (List.mem_cons_self (a := Call.set s) (l := l))
        have h2 := (setting_sim (F := F) (d := F) w s ⟨fun r b e => hs'.1 r b (by rw [e]), fun r m e => hs'.2 r m (by rw [e])⟩ hc).2.2.1
        rw [run_history w l c1 F h (fun x hx => hs x (List.mem_cons_of_mem _ hx)), h2]
        rfl

theorem replay_sim (w : World) : ∀ (calls : List Call) (c d F : Ctx), runAll w calls c = some F → Settled calls → Independent w c.internal.args F.counter →
    Sim F c d → ∃ d', replay w (acts calls) d = some d' ∧ Sim F F d'
  | [], c, d, F, h, _, _, hsim => by
    simp only [runAll, Option.some.injEq] at h
    subst h
    exact ⟨d, rfl, hsim⟩
  | .act a :: l, c, d, F, h, hs, hind, hsim => by
    simp only [runAll] at h
    obtain ⟨hs1, hs2⟩ := hs
    rw [List.pairwise_cons] at hs2
    have hs1' : ∀ x ∈ l, _ := fun x hx => hs1 x (List.mem_cons_of_mem _ hx)
    cases hc : call w a c with
    | mk c1 b =>
      rw [hc] at h
      cases b with
      | false => cases h
      | true =>
        obtain ⟨d1, hd1, hsim1⟩ := step_act w a hc hsim (by
          rintro rel elems dj rfl
          have h1 := run_flags w rel l c1 F h hs1' (fun x hx => hs2.1 x hx rel ⟨_, _, rfl⟩)
          have h2 := act_flags w (.facts rel elems dj) c rel (by rintro ⟨_, _, _, _, _, e⟩; cases e)
          rw [hc] at h2
          exact ⟨h1.1.trans h2.1, h1.2.trans h2.2⟩) hind
        have ha := (call_history w a c).2
        rw [hc] at ha
        obtain ⟨d', hd', hsim'⟩ := replay_sim w l c1 d1 F h ⟨hs1', hs2.2⟩ (by rw [ha]; exact hind) hsim1
        exact ⟨d', by simp only [acts, replay, hd1]; exact hd', hsim'⟩
  | .set s :: l, c, d, F, h, hs, hind, hsim => by
    simp only [runAll] at h
    obtain ⟨hs1, hs2⟩ := hs
    rw [List.pairwise_cons] at hs2
    cases hc : setting w s c with
    | mk c1 b =>
      rw [hc] at h
      cases b with
      | false => cases h
      | true =>
        have hs' := hs1 _ (List.mem_cons_self (a := Call.set s) (l := l))
        obtain ⟨h1, _, _, ha⟩ := setting_sim (F := F) (d := d) w s ⟨fun r b e => hs'.1 r b (by rw [e]), fun r m e => hs'.2 r m (by rw [e])⟩ hc
        exact replay_sim w l c1 d F h ⟨fun x hx => hs1 x (List.mem_cons_of_mem _ hx), hs2.2⟩ (by rw [ha]; exact hind) (h1 hsim)

/-- Fields that no call changes. -/
theorem run_fixed (w : World) : ∀ (calls : List Call) (c F : Ctx), runAll w calls c = some F →
    F.prov = c.prov ∧ F.k = c.k ∧ F.wmc = c.wmc ∧ F.trainK = c.trainK ∧ F.testK = c.testK ∧ F.mons = c.mons ∧ F.internal.args = c.internal.args
  | [], c, F, h => by
    simp only [runAll, Option.some.injEq] at h
    subst h
    simp
  | .act a :: l, c, F, h => by
    simp only [runAll] at h
    cases hc : call w a c with
    | mk c1 b =>
      rw [hc] at h
      cases b with
      | false => cases h
      | true =>
        have h1 := run_fixed w l c1 F h
        have h2 : c1.prov = c.prov ∧ c1.k = c.k ∧ c1.wmc = c.wmc ∧ c1.trainK = c.trainK ∧ c1.testK = c.testK ∧ c1.mons = c.mons ∧ c1.internal.args = c.internal.args := by
          have : c1 = (call w a c).1 := by rw [hc]
          rw [this]
          cases a with
          | facts rel elems dj => simp only [call, perform]; split <;> simp [send]
          | relation name decl single mapping retain nonProb =>
            cases hok : w.ok c.internal (.relation name decl) <;> cases hm : mappingFits w ⟨c.internal.args, c.internal.log ++ [.relation name decl]⟩ name mapping <;>
              simp [call, perform, send, hok, hm]
          | _ => simp [call, perform, send]
        simp_all
  | .set s :: l, c, F, h => by
    simp only [runAll] at h
    cases hc : setting w s c with
    | mk c1 b =>
      rw [hc] at h
      cases b with
      | false => cases h
      | true =>
        have h1 := run_fixed w l c1 F h
        have h2 : c1.prov = c.prov ∧ c1.k = c.k ∧ c1.wmc = c.wmc ∧ c1.trainK = c.trainK ∧ c1.testK = c.testK ∧ c1.mons = c.mons ∧ c1.internal.args = c.internal.args := by
          have : c1 = (setting w s c).1 := by rw [hc]
          rw [this]
          cases s with
          | training b => simp only [setting]; split <;> simp [send]
          | nonProb r b => simp only [setting]; split <;> simp
          | mapping r m => simp only [setting]; split <;> simp
          | _ => simp [setting, send]
        simp_all

/-- A replay calls the bindings only with what belongs to the program. -/
theorem replay_program (w : World) : ∀ (l : List Act) (c c' : Ctx), replay w l c = some c' → (∀ op ∈ c.internal.log, isProgram op = true) →
    ∀ op ∈ c'.internal.log, isProgram op = true
  | [], c, c', h, hp => by
    simp only [replay, Option.some.injEq] at h
    subst h
    exact hp
  | a :: l, c, c', h, hp => by
    simp only [replay] at h
    cases hc : call w a c with
    | mk c1 b =>
      rw [hc] at h
      cases b with
      | false => cases h
      | true =>
        refine replay_program w l c1 c' h ?_
        have : c1 = (call w a c).1 := by rw [hc]
        rw [this]
        have app : ∀ op0, isProgram op0 = true → ∀ op ∈ c.internal.log ++ [op0], isProgram op = true := by
          intro op0 h0 op hop
          rcases List.mem_append.mp hop with h | h
          · exact hp op h
          · rw [List.mem_singleton.mp h]; exact h0
        cases a with
        | facts rel elems dj =>
          simp only [call, perform]
          split
          · exact hp
          · exact app _ rfl
        | relation name decl single mapping retain nonProb =>
          cases hok : w.ok c.internal (.relation name decl) <;> cases hm : mappingFits w ⟨c.internal.args, c.internal.log ++ [.relation name decl]⟩ name mapping <;>
            simp only [call, perform, send, hok, hm] <;> exact app _ rfl
        | _ => exact app _ rfl

end Scallop.CtxState
