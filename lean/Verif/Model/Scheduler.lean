import Verif.Model.Sorted

/-!
# Schedulers

Models `/repo/core/src/runtime/env/schedulers/{utils,lfp,dfs,astar,beam}.rs` and `Scheduler::schedule`
(`/repo/core/src/runtime/env/scheduling.rs` 86-99).

The mutable `HashSet` of indices to remove is a list of indices. `none` results are panics.
-/

namespace Scallop

variable {α T W : Type*} [LinearOrder α]

/-- Models `compute_saturation_and_update_tag` (`schedulers/utils.rs` 37-58): returns whether the tag is saturated, the updated
`to_add` element and the updated stable element. -/
def satUpdate (c : Prov T W) (t s : Elem α T) : Bool × Elem α T × Elem α T :=
  let n := c.add s.tag t.tag
  if c.saturated s.tag n then (true, t, { s with tag := n }) else (false, { t with tag := n }, s)

/-- State of the pass over the stable batches: the `to_add` collection and the indices marked for removal. -/
structure Scan (α T : Type*) where
  toAdd : List (Elem α T)
  rm : List Nat

/-- Models `compute_stable_retain` (`schedulers/utils.rs` 6-32): `some` is the (updated) stable element that is retained. -/
def stableRetain (c : Prov T W) (index : Nat) (st : Scan α T) (s : Elem α T) : Option (Elem α T) × Scan α T :=
  match st.toAdd[index]? with
  | none => (some s, st)
  | some t =>
    if t.tuple ≠ s.tuple then (some s, st)
    else
      match satUpdate c t s with
      | (true, _, s') => (some s', { st with rm := index :: st.rm })
      | (false, t', _) => (none, { st with toAdd := st.toAdd.set index t' })

/-- The inner `while` loop `lfp.rs` 28-30: advance `index` while `to_add[index] < stable_elem`. -/
def seekLinear (toAdd : List (Elem α T)) (index : Nat) (k : α) : Nat :=
  index + ((toAdd.drop index).takeWhile (fun y => y.tuple < k)).length

/-- The galloping variant `lfp.rs` 24. -/
def seekGallop (toAdd : List (Elem α T)) (index : Nat) (k : α) : Nat :=
  gallopIndex toAdd index (fun y => y.tuple < k)

/-- `retain_mut` over one stable batch (`lfp.rs` 23-33), threading `index` and the scan state. -/
def scanBatch (c : Prov T W) (seek : List (Elem α T) → Nat → α → Nat) :
    List (Elem α T) → Nat → Scan α T → List (Elem α T) × Scan α T
  | [], _, st => ([], st)
  | s :: batch, index, st =>
    let index' := seek st.toAdd index s.tuple
    let r := stableRetain c index' st s
    let rest := scanBatch c seek batch index' r.2
    (r.1.toList ++ rest.1, rest.2)

/-- The loop over all stable batches (`lfp.rs` 18-35): galloping if `to_add.len() > 4 * stable_batch.len()`. -/
def scanStable (c : Prov T W) : List (List (Elem α T)) → Scan α T → List (List (Elem α T)) × Scan α T
  | [], st => ([], st)
  | b :: bs, st =>
    let r := if st.toAdd.length > 4 * b.length then scanBatch c seekGallop b 0 st else scanBatch c seekLinear b 0 st
    let rest := scanStable c bs r.2
    (r.1 :: rest.1, rest.2)

/-- Models `schedule_lfp` (`schedulers/lfp.rs` 9-39); this is also the first phase of the three other schedulers
(`dfs.rs` 16-40, `astar.rs` 18-42, `beam.rs` 19-43). Returns the new `to_add` and `stable`. -/
def scheduleLfp (c : Prov T W) (toAdd : List (Elem α T)) (stable : List (List (Elem α T))) :
    List (Elem α T) × List (List (Elem α T)) :=
  if toAdd.length > 0 then
    let r := scanStable c stable ⟨toAdd, []⟩
    (retainIdx (fun i _ => !r.2.rm.contains i) r.2.toAdd, r.1)
  else (toAdd, stable)

/-- Outcome of looking up a wait-listed element in the stable batches. -/
inductive Lookup (α T : Type*) where
  | notFound
  | saturated (stable : List (List (Elem α T)))
  | unsaturated (elem : Elem α T) (stable : List (List (Elem α T)))

/-- The `for stable_batch in stable.iter_mut()` loop (`dfs.rs` 60-83, `astar.rs` 66-89). -/
def lookupStable (c : Prov T W) (w : Elem α T) : List (List (Elem α T)) → Lookup α T
  | [] => .notFound
  | b :: bs =>
    let i := gallopIndex b 0 (fun y => y.tuple < w.tuple)
    let next : Lookup α T :=
      match lookupStable c w bs with
      | .notFound => .notFound
      | .saturated bs' => .saturated (b :: bs')
      | .unsaturated w' bs' => .unsaturated w' (b :: bs')
    match b[i]? with
    | none => next
    | some s =>
      if s.tuple ≠ w.tuple then next
      else
        match satUpdate c w s with
        | (true, _, s') => .saturated (b.set i s' :: bs)
        | (false, w', _) => .unsaturated w' (retainIdx (fun id _ => id != i) b :: bs)

/-- The `while let Some(w) = waitlist.pop()` loop (`dfs.rs` 57-90, `astar.rs` 63-95), on the reversed wait list. `to_add` is
empty when the loop is entered. Returns `to_add`, the reversed wait list and `stable`. -/
def popWaitlist (c : Prov T W) :
    List (Elem α T) → List (List (Elem α T)) → Option (List (Elem α T) × List (Elem α T) × List (List (Elem α T)))
  | [], stable => some ([], [], stable)
  | w :: ws, stable =>
    match lookupStable c w stable with
    | .notFound => (insertUnchecked? [] w).map (fun a => (a, ws, stable))
    | .saturated stable' => popWaitlist c ws stable'
    | .unsaturated w' stable' => (insertUnchecked? [] w').map (fun a => (a, ws, stable'))

/-- Result of scheduling: `to_add` (the next `recent`), the wait list and the stable batches. -/
structure Sched (α T : Type*) where
  toAdd : List (Elem α T)
  waitlist : List (Elem α T)
  stable : List (List (Elem α T))
deriving DecidableEq

/-- Models `schedule_dfs` (`schedulers/dfs.rs` 9-91). -/
def scheduleDfs (c : Prov T W) (toAdd waitlist : List (Elem α T)) (stable : List (List (Elem α T))) : Option (Sched α T) :=
  let r := scheduleLfp c toAdd stable
  match r.1 with
  | first :: rest => (insertUnchecked? [] first).map (fun a => ⟨a, waitlist ++ rest, r.2⟩)
  | [] =>
    (popWaitlist c waitlist.reverse r.2).map (fun p => ⟨p.1, p.2.1.reverse, p.2.2⟩)

/-- Draining `to_add` into the wait list (`astar.rs` 45-60). -/
def drainIntoWaitlist [LinearOrder W] (c : Prov T W) : List (Elem α T) → List (Elem α T) → Option (List (Elem α T))
  | [], wl => some wl
  | t :: ts, wl =>
    let i := gallopIndex wl 0 (fun e => decide (c.weight e.tag < c.weight t.tag))
    match wl[i]? with
    | some e =>
      if e.tuple = t.tuple then drainIntoWaitlist c ts (wl.set i { e with tag := c.add e.tag t.tag })
      else (vecInsert wl i t).bind (drainIntoWaitlist c ts)
    | none => drainIntoWaitlist c ts (wl ++ [t])

/-- Models `schedule_a_star` (`schedulers/astar.rs` 11-94). -/
def scheduleAStar [LinearOrder W] (c : Prov T W) (toAdd waitlist : List (Elem α T)) (stable : List (List (Elem α T))) :
    Option (Sched α T) :=
  let r := scheduleLfp c toAdd stable
  (drainIntoWaitlist c r.1 waitlist).bind (fun wl =>
    (popWaitlist c wl.reverse r.2).map (fun p => ⟨p.1, p.2.1.reverse, p.2.2⟩))

/-- Draining `to_add` into the weight-sorted `sorted_delta` (`beam.rs` 46-55). -/
def drainByWeight [LinearOrder W] (c : Prov T W) : List (Elem α T) → List (Elem α T) → Option (List (Elem α T))
  | [], sd => some sd
  | t :: ts, sd =>
    (vecInsert sd (gallopIndex sd 0 (fun e => decide (c.weight e.tag < c.weight t.tag))) t).bind (drainByWeight c ts)

/-- `for _ in 0..beam_size { to_add.insert_unchecked(sorted_delta.pop().unwrap()) }` (`beam.rs` 60-62), on the reversed
`sorted_delta`. -/
def takeBeam : Nat → List (Elem α T) → List (Elem α T) → Option (List (Elem α T) × List (Elem α T))
  | 0, rsd, acc => some (acc, rsd)
  | _ + 1, [], _ => none
  | n + 1, t :: rsd, acc => (insertUnchecked? acc t).bind (takeBeam n rsd)

/-- `for elem in sorted_delta { to_add.insert_unchecked(elem) }` (`beam.rs` 69-71). -/
def insertAll : List (Elem α T) → List (Elem α T) → Option (List (Elem α T))
  | [], acc => some acc
  | t :: ts, acc => (insertUnchecked? acc t).bind (insertAll ts)

/-- `while to_add.len() < beam_size && waitlist.len() > 0 { to_add.insert(waitlist.pop().unwrap(), ctx) }` (`beam.rs` 75-77),
on the reversed wait list. -/
def fillBeam (c : Prov T W) (beam : Nat) : List (Elem α T) → List (Elem α T) → Option (List (Elem α T) × List (Elem α T))
  | [], acc => some (acc, [])
  | w :: ws, acc =>
    if acc.length < beam then (insert? c acc w).bind (fillBeam c beam ws) else some (acc, w :: ws)

/-- Models `schedule_beam` (`schedulers/beam.rs` 11-77). -/
def scheduleBeam [LinearOrder W] (c : Prov T W) (beam : Nat) (toAdd waitlist : List (Elem α T))
    (stable : List (List (Elem α T))) : Option (Sched α T) :=
  let r := scheduleLfp c toAdd stable
  (drainByWeight c r.1 []).bind (fun sd =>
    if sd.length ≥ beam then
      (takeBeam beam sd.reverse []).map (fun p => ⟨p.1, waitlist ++ p.2.reverse, r.2⟩)
    else
      (insertAll sd []).bind (fun acc =>
        (fillBeam c beam waitlist.reverse acc).map (fun p => ⟨p.1, p.2.reverse, r.2⟩)))

/-- Models `enum Scheduler` (`env/scheduling.rs` 45-59). -/
inductive Scheduler where
  | lfp
  | dfs
  | aStar
  | beam (size : Nat)

/-- Models `Scheduler::schedule` (`env/scheduling.rs` 86-99). -/
def Scheduler.schedule [LinearOrder W] (s : Scheduler) (c : Prov T W) (toAdd waitlist : List (Elem α T))
    (stable : List (List (Elem α T))) : Option (Sched α T) :=
  match s with
  | .lfp => let r := scheduleLfp c toAdd stable; some ⟨r.1, waitlist, r.2⟩
  | .dfs => scheduleDfs c toAdd waitlist stable
  | .aStar => scheduleAStar c toAdd waitlist stable
  | .beam n => scheduleBeam c n toAdd waitlist stable

end Scallop
