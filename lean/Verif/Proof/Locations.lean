import Verif.Spec.Locations

/-! # Locations -/

namespace Scallop.Loc

theorem blen_append (a b : List Char) : blen (a ++ b) = blen a + blen b := by
  induction a with
  | nil => simp [blen]
  | cons c a ih => simp only [List.cons_append, blen, ih]; omega

theorem blen_ascii {l : List Char} (h : Ascii l) : blen l = l.length := by
  induction l with
  | nil => rfl
  | cons c l ih =>
    rw [blen, h c (by simp), ih fun d hd => h d (List.mem_cons_of_mem _ hd), List.length_cons]; omega

theorem size_nl : ('\n' : Char).utf8Size = 1 := by decide

/-- The rows of a text that begins at `k`. -/
def rowsAt (k : Nat) (s : List Char) : List (Nat × Nat) := offsetLengths (k + blen s) (k :: afterEnds k s)

theorem rows_eq (s : List Char) : rows s = rowsAt 0 s := by simp [rows, rowsAt]

theorem afterEnds_line {l : List Char} (h : OneLine l) (n : Nat) (t : List Char) :
    afterEnds n (l ++ '\n' :: t) = (n + blen l + 1) :: afterEnds (n + blen l + 1) t := by
  induction l generalizing n with
  | nil => simp [afterEnds, blen]
  | cons c l ih =>
    simp only [OneLine, List.mem_cons, not_or] at h
    rw [List.cons_append, afterEnds, if_neg (Ne.symm h.1), ih h.2, blen]
    congr 1
    · omega
    · congr 1; omega

theorem afterEnds_none {l : List Char} (h : OneLine l) (n : Nat) : afterEnds n l = [] := by
  induction l generalizing n with
  | nil => rfl
  | cons c l ih =>
    simp only [OneLine, List.mem_cons, not_or] at h
    rw [afterEnds, if_neg (Ne.symm h.1), ih h.2]

theorem rowsAt_line {l : List Char} (h : OneLine l) (k : Nat) (t : List Char) :
    rowsAt k (l ++ '\n' :: t) = (k, blen l) :: rowsAt (k + blen l + 1) t := by
  have e : k + blen (l ++ '\n' :: t) = k + blen l + 1 + blen t := by
    rw [blen_append, blen, size_nl]; omega
  rw [rowsAt, afterEnds_line h, offsetLengths, e, rowsAt]
  congr 2; omega

theorem rowsAt_last {l : List Char} (h : OneLine l) (k : Nat) : rowsAt k l = [(k, blen l)] := by
  rw [rowsAt, afterEnds_none h, offsetLengths]; congr 2; omega

theorem rowsAt_head (k : Nat) (s : List Char) : ∃ n r, rowsAt k s = (k, n) :: r := by
  rw [rowsAt]
  cases afterEnds k s with
  | nil => exact ⟨_, _, rfl⟩
  | cons o l => exact ⟨_, _, rfl⟩

theorem lines_of (s : List Char) : ∃ ls l, s = ended ls ++ l ∧ (∀ m ∈ ls, OneLine m) ∧ OneLine l := by
  induction s with
  | nil => exact ⟨[], [], rfl, by simp, by simp [OneLine]⟩
  | cons c s ih =>
    obtain ⟨ls, l, rfl, h, hl⟩ := ih
    by_cases hc : c = '\n'
    · exact ⟨[] :: ls, l, by simp [ended, hc], by
        intro m hm
        rcases List.mem_cons.1 hm with rfl | hm
        · simp [OneLine]
        · exact h m hm, hl⟩
    · cases ls with
      | nil => exact ⟨[], c :: l, rfl, by simp, by simp [OneLine, Ne.symm hc]; exact hl⟩
      | cons m ls =>
        refine ⟨(c :: m) :: ls, l, by simp [ended], ?_, hl⟩
        intro m' hm'
        rcases List.mem_cons.1 hm' with rfl | hm'
        · have := h m (by simp)
          simp [OneLine, Ne.symm hc]; exact this
        · exact h m' (List.mem_cons_of_mem _ hm')

theorem rowColFrom_skip {off k n k' n' i : Nat} {r : List (Nat × Nat)} (h : k' ≤ off) :
    rowColFrom off i ((k, n) :: (k', n') :: r) = rowColFrom off (i + 1) ((k', n') :: r) := by
  rw [rowColFrom, if_neg (by omega)]

theorem rowColFrom_line {l t : List Char} (hl : OneLine l) {k i off : Nat} (h : k + blen l + 1 ≤ off) :
    rowColFrom off i (rowsAt k (l ++ '\n' :: t)) = rowColFrom off (i + 1) (rowsAt (k + blen l + 1) t) := by
  rw [rowsAt_line hl]
  obtain ⟨n, r, e⟩ := rowsAt_head (k + blen l + 1) t
  rw [e, rowColFrom_skip h]

theorem rowColFrom_here {l t : List Char} (hl : OneLine l) {k i off : Nat} (h1 : k ≤ off) (h2 : off ≤ k + blen l) :
    rowColFrom off i (rowsAt k (l ++ '\n' :: t)) = (i, off - k) := by
  rw [rowsAt_line hl]
  obtain ⟨n, r, e⟩ := rowsAt_head (k + blen l + 1) t
  rw [e, rowColFrom, if_pos (by omega)]

theorem rowColFrom_last {l : List Char} (hl : OneLine l) {k i off : Nat} (h1 : k ≤ off) :
    rowColFrom off i (rowsAt k l) = (i, off - k) := by
  rw [rowsAt_last hl, rowColFrom, if_pos h1]

/-- The end of the first line of a text, if it has one. -/
theorem first_line (s : List Char) : OneLine s ∨ ∃ l t, OneLine l ∧ s = l ++ '\n' :: t := by
  obtain ⟨ls, l, rfl, h, hl⟩ := lines_of s
  cases ls with
  | nil => exact .inl hl
  | cons m ls => exact .inr ⟨m, ended ls ++ l, h m (by simp), by simp [ended]⟩

theorem rowCol_at (ls : List (List Char)) (h : ∀ l ∈ ls, OneLine l) (a b : List Char) (ha : OneLine a) (k i : Nat) :
    rowColFrom (k + blen (ended ls) + blen a) i (rowsAt k (ended ls ++ (a ++ b))) = (i + ls.length, blen a) := by
  induction ls generalizing k i with
  | nil =>
    simp only [ended, blen, List.nil_append, List.length_nil]
    rcases first_line b with hb | ⟨l, t, hl, rfl⟩
    · rw [rowColFrom_last (by simp [OneLine, List.mem_append] at *; exact ⟨ha, hb⟩) (by omega)]
      congr 1; omega
    · rw [← List.append_assoc, rowColFrom_here (by simp [OneLine, List.mem_append] at *; exact ⟨ha, hl⟩) (by omega)
        (by rw [blen_append]; omega)]
      congr 1; omega
  | cons l ls ih =>
    have hl := h l (by simp)
    have e : ended (l :: ls) ++ (a ++ b) = l ++ '\n' :: (ended ls ++ (a ++ b)) := by simp [ended]
    have e' : blen (ended (l :: ls)) = blen l + 1 + blen (ended ls) := by
      rw [ended, blen_append, blen, size_nl]; omega
    rw [e, e', rowColFrom_line hl (by omega)]
    have := ih (fun m hm => h m (List.mem_cons_of_mem _ hm)) (k + blen l + 1) (i + 1)
    have e2 : k + (blen l + 1 + blen (ended ls)) + blen a = k + blen l + 1 + blen (ended ls) + blen a := by omega
    rw [e2, this]
    simp only [List.length_cons]; congr 1; omega

theorem dropBytes_append (u t : List Char) (m : Nat) : dropBytes (blen u + m) (u ++ t) = dropBytes m t := by
  induction u with
  | nil => simp [blen]
  | cons c u ih =>
    have hc : 0 < c.utf8Size := Char.utf8Size_pos c
    obtain ⟨n, hn⟩ : ∃ n, blen (c :: u) + m = n + 1 := ⟨blen (c :: u) + m - 1, by rw [blen]; omega⟩
    rw [hn, List.cons_append, dropBytes, if_pos (by rw [blen] at hn; omega)]
    rw [← ih]
    congr 1
    rw [blen] at hn; omega

theorem takeBytes_append (u t : List Char) : takeBytes (blen u) (u ++ t) = some u := by
  induction u with
  | nil => simp [blen, takeBytes]
  | cons c u ih =>
    have hc : 0 < c.utf8Size := Char.utf8Size_pos c
    obtain ⟨n, hn⟩ : ∃ n, blen (c :: u) = n + 1 := ⟨blen (c :: u) - 1, by rw [blen]; omega⟩
    rw [hn, List.cons_append, takeBytes, if_pos (by rw [blen] at hn; omega)]
    have e : n + 1 - c.utf8Size = blen u := by rw [blen] at hn; omega
    rw [e, ih]; rfl

theorem rows_at (ls : List (List Char)) (h : ∀ l ∈ ls, OneLine l) (l rest : List Char) (hl : OneLine l)
    (hr : rest = [] ∨ ∃ t, rest = '\n' :: t) (k : Nat) :
    (rowsAt k (ended ls ++ (l ++ rest)))[ls.length]? = some (k + blen (ended ls), blen l) := by
  induction ls generalizing k with
  | nil =>
    simp only [ended, blen, List.nil_append, List.length_nil]
    rcases hr with rfl | ⟨t, rfl⟩
    · rw [List.append_nil, rowsAt_last hl]; rfl
    · rw [rowsAt_line hl]; rfl
  | cons m ls ih =>
    have hm := h m (by simp)
    have e : ended (m :: ls) ++ (l ++ rest) = m ++ '\n' :: (ended ls ++ (l ++ rest)) := by simp [ended]
    have e' : blen (ended (m :: ls)) = blen m + 1 + blen (ended ls) := by
      rw [ended, blen_append, blen, size_nl]; omega
    rw [e, rowsAt_line hm, List.length_cons, List.getElem?_cons_succ, ih fun x hx => h x (List.mem_cons_of_mem _ hx), e']
    congr 2; omega

theorem line_at (ls : List (List Char)) (h : ∀ l ∈ ls, OneLine l) (l rest : List Char) (hl : OneLine l)
    (hr : rest = [] ∨ ∃ t, rest = '\n' :: t) : line (ended ls ++ (l ++ rest)) ls.length = some l := by
  rw [line, rows_eq, rows_at ls h l rest hl hr 0]
  simp only [Nat.zero_add]
  have := dropBytes_append (ended ls) (l ++ rest) 0
  rw [Nat.add_zero] at this
  rw [this, dropBytes]
  exact takeBytes_append l rest

theorem rows_length (ls : List (List Char)) (h : ∀ l ∈ ls, OneLine l) (l : List Char) (hl : OneLine l) (k : Nat) :
    (rowsAt k (ended ls ++ l)).length = ls.length + 1 := by
  induction ls generalizing k with
  | nil => simp [ended, rowsAt_last hl]
  | cons m ls ih =>
    have e : ended (m :: ls) ++ l = m ++ '\n' :: (ended ls ++ l) := by simp [ended]
    rw [e, rowsAt_line (h m (by simp)), List.length_cons, ih fun x hx => h x (List.mem_cons_of_mem _ hx)]; rfl

/-- Where an offset lies: in one of the complete lines or its line end, or in the last line or after the end. -/
theorem place (ls : List (List Char)) (l : List Char) (off : Nat) :
    (∃ pre m post, ls = pre ++ m :: post ∧ blen (ended pre) ≤ off ∧ off ≤ blen (ended pre) + blen m) ∨ blen (ended ls) ≤ off := by
  induction ls generalizing off with
  | nil => exact .inr (by simp [ended, blen])
  | cons m ls ih =>
    have e' : blen (ended (m :: ls)) = blen m + 1 + blen (ended ls) := by
      rw [ended, blen_append, blen, size_nl]; omega
    by_cases h : off ≤ blen m
    · exact .inl ⟨[], m, ls, rfl, by simp [ended, blen], by simp [ended, blen]; exact h⟩
    · rcases ih (off - (blen m + 1)) with ⟨pre, m', post, rfl, h1, h2⟩ | h1
      · refine .inl ⟨m :: pre, m', post, rfl, ?_, ?_⟩
        · rw [ended, blen_append, blen, size_nl]; omega
        · rw [ended, blen_append, blen, size_nl]; omega
      · exact .inr (by omega)

theorem rowColFrom_in (pre : List (List Char)) (h : ∀ x ∈ pre, OneLine x) {m t : List Char} (hm : OneLine m) {off k i : Nat}
    (h1 : k + blen (ended pre) ≤ off) (h2 : off ≤ k + blen (ended pre) + blen m) :
    rowColFrom off i (rowsAt k (ended pre ++ (m ++ '\n' :: t))) = (i + pre.length, off - (k + blen (ended pre))) := by
  induction pre generalizing k i with
  | nil =>
    simp only [ended, blen, List.nil_append, List.length_nil, Nat.add_zero] at *
    rw [rowColFrom_here hm h1 h2]
  | cons l ls ih =>
    have e : ended (l :: ls) ++ (m ++ '\n' :: t) = l ++ '\n' :: (ended ls ++ (m ++ '\n' :: t)) := by simp [ended]
    have e' : blen (ended (l :: ls)) = blen l + 1 + blen (ended ls) := by
      rw [ended, blen_append, blen, size_nl]; omega
    rw [e, rowColFrom_line (h l (by simp)) (by omega), ih (fun x hx => h x (List.mem_cons_of_mem _ hx)) (by omega) (by omega), e']
    simp only [List.length_cons]; congr 1 <;> omega

theorem rowColFrom_end (pre : List (List Char)) (h : ∀ x ∈ pre, OneLine x) {l : List Char} (hl : OneLine l) {off k i : Nat}
    (h1 : k + blen (ended pre) ≤ off) :
    rowColFrom off i (rowsAt k (ended pre ++ l)) = (i + pre.length, off - (k + blen (ended pre))) := by
  induction pre generalizing k i with
  | nil =>
    simp only [ended, blen, List.nil_append, List.length_nil, Nat.add_zero] at *
    rw [rowColFrom_last hl h1]
  | cons m ls ih =>
    have e : ended (m :: ls) ++ l = m ++ '\n' :: (ended ls ++ l) := by simp [ended]
    have e' : blen (ended (m :: ls)) = blen m + 1 + blen (ended ls) := by
      rw [ended, blen_append, blen, size_nl]; omega
    rw [e, rowColFrom_line (h m (by simp)) (by omega), ih (fun x hx => h x (List.mem_cons_of_mem _ hx)) (by omega), e']
    simp only [List.length_cons]; congr 1 <;> omega

theorem ended_append (a b : List (List Char)) : ended (a ++ b) = ended a ++ ended b := by
  induction a with
  | nil => rfl
  | cons l a ih => simp [ended, ih]

/-- The row and column of any offset: the line stands in the text, it begins `col` bytes before, and unless it is the last
line the offset is not after its end. -/
theorem rowCol_place (s : List Char) (off : Nat) : ∃ pre l rest, s = ended pre ++ (l ++ rest) ∧ (∀ x ∈ pre, OneLine x) ∧ OneLine l ∧
    (rest = [] ∨ ∃ t, rest = '\n' :: t) ∧ rowCol (rows s) off = (pre.length, off - blen (ended pre)) ∧
    blen (ended pre) ≤ off ∧ (rest ≠ [] → off ≤ blen (ended pre) + blen l) := by
  obtain ⟨ls, l, rfl, h, hl⟩ := lines_of s
  rcases place ls l off with ⟨pre, m, post, rfl, h1, h2⟩ | h1
  · have e : ended (pre ++ m :: post) ++ l = ended pre ++ (m ++ '\n' :: (ended post ++ l)) := by simp [ended_append, ended]
    have hp : ∀ x ∈ pre, OneLine x := fun x hx => h x (List.mem_append_left _ hx)
    have hm : OneLine m := h m (by simp)
    refine ⟨pre, m, '\n' :: (ended post ++ l), e, hp, hm, .inr ⟨_, rfl⟩, ?_, h1, fun _ => h2⟩
    rw [e, rowCol, rows_eq, rowColFrom_in pre hp hm (by omega) (by omega)]
    congr 1 <;> omega
  · refine ⟨ls, l, [], by simp, h, hl, .inl rfl, ?_, h1, by simp⟩
    rw [rowCol, rows_eq, rowColFrom_end ls h hl (by omega)]
    congr 1 <;> omega

theorem prefix_unique : ∀ (a b : List (List Char)) (x y : List Char), (∀ l ∈ a, OneLine l) → (∀ l ∈ b, OneLine l) →
    ended a ++ x = ended b ++ y → a.length = b.length → a = b ∧ x = y
  | [], [], _, _, _, _, e, _ => ⟨rfl, e⟩
  | [], _ :: _, _, _, _, _, _, h => by simp at h
  | _ :: _, [], _, _, _, _, _, h => by simp at h
  | l :: a, m :: b, x, y, ha, hb, e, h => by
    have key : ∀ (l m u v : List Char), OneLine l → OneLine m → l ++ '\n' :: u = m ++ '\n' :: v → l = m ∧ u = v := by
      intro l
      induction l with
      | nil =>
        intro m u v _ hm e
        cases m with
        | nil => simpa using e
        | cons c m => simp at e; simp [OneLine] at hm; exact absurd e.1 hm.1
      | cons c l ih =>
        intro m u v hl hm e
        cases m with
        | nil => simp at e; simp [OneLine] at hl; exact absurd e.1.symm hl.1
        | cons d m =>
          simp at e
          simp only [OneLine, List.mem_cons, not_or] at hl hm
          obtain ⟨rfl, rfl⟩ := ih m u v hl.2 hm.2 e.2
          exact ⟨by rw [e.1], rfl⟩
    have e' : l ++ '\n' :: (ended a ++ x) = m ++ '\n' :: (ended b ++ y) := by simpa [ended] using e
    obtain ⟨rfl, e2⟩ := key _ _ _ _ (ha l (by simp)) (hb m (by simp)) e'
    obtain ⟨rfl, rfl⟩ := prefix_unique a b x y (fun l hl => ha l (List.mem_cons_of_mem _ hl))
      (fun l hl => hb l (List.mem_cons_of_mem _ hl)) e2 (by simpa using h)
    exact ⟨rfl, rfl⟩

theorem line_unique : ∀ {l m u v : List Char}, OneLine l → OneLine m → (u = [] ∨ ∃ t, u = '\n' :: t) → (v = [] ∨ ∃ t, v = '\n' :: t) →
    l ++ u = m ++ v → l = m ∧ u = v := by
  intro l
  induction l with
  | nil =>
    intro m u v _ hm hu hv e
    cases m with
    | nil => exact ⟨rfl, by simpa using e⟩
    | cons c m =>
      simp at e
      rcases hu with rfl | ⟨t, rfl⟩
      · cases e
      · simp at e; simp [OneLine] at hm; exact absurd e.1 hm.1
  | cons c l ih =>
    intro m u v hl hm hu hv e
    cases m with
    | nil =>
      simp at e
      rcases hv with rfl | ⟨t, rfl⟩
      · cases e
      · simp at e; simp [OneLine] at hl; exact absurd e.1.symm hl.1
    | cons d m =>
      simp at e
      simp only [OneLine, List.mem_cons, not_or] at hl hm
      obtain ⟨rfl, rfl⟩ := ih hl.2 hm.2 hu hv e.2
      exact ⟨by rw [e.1], rfl⟩

theorem ended_prefix_lt : ∀ (a b : List (List Char)) (l x y : List Char), (∀ l ∈ a, OneLine l) → (∀ l ∈ b, OneLine l) → OneLine l →
    (x = [] ∨ ∃ t, x = '\n' :: t) →
    ended a ++ (l ++ x) = ended b ++ y → a.length < b.length → blen (ended a) + blen l + 1 ≤ blen (ended b) ∧ x ≠ []
  | _, [], _, _, _, _, _, _, _, _, h => by simp at h
  | [], m :: b, l, x, y, _, hb, hl, hx, e, _ => by
    have e' : l ++ x = m ++ '\n' :: (ended b ++ y) := by simpa [ended] using e
    obtain ⟨rfl, rfl⟩ := line_unique hl (hb m (by simp)) hx (.inr ⟨_, rfl⟩) e'
    refine ⟨?_, by simp⟩
    simp only [ended, blen_append, blen, size_nl]; omega
  | k :: a, m :: b, l, x, y, ha, hb, hl, hx, e, h => by
    have e' : k ++ '\n' :: (ended a ++ (l ++ x)) = m ++ '\n' :: (ended b ++ y) := by simpa [ended] using e
    obtain ⟨rfl, e2⟩ := line_unique (ha k (by simp)) (hb m (by simp)) (.inr ⟨_, rfl⟩) (.inr ⟨_, rfl⟩) e'
    simp only [List.cons.injEq, true_and] at e2
    obtain ⟨h1, h2⟩ := ended_prefix_lt a b l x y (fun l hl => ha l (List.mem_cons_of_mem _ hl))
      (fun l hl => hb l (List.mem_cons_of_mem _ hl)) hl hx e2 (by simpa using h)
    refine ⟨?_, h2⟩
    simp only [ended, blen_append, blen, size_nl]; omega

theorem row_line {s : List Char} {off r c : Nat} (h : rowCol (rows s) off = (r, c)) : r < (rows s).length := by
  obtain ⟨pre, l, rest, rfl, h1, h2, h3, h4, -⟩ := rowCol_place s off
  rw [h4] at h
  cases h
  rw [rows_eq]
  exact (List.getElem?_eq_some_iff.1 (rows_at pre h1 l rest h2 h3 0)).1

theorem line_some {s : List Char} {r : Nat} (h : r < (rows s).length) : ∃ l, line s r = some l := by
  obtain ⟨ls, l, rfl, h1, h2⟩ := lines_of s
  rw [rows_eq, rows_length ls h1 l h2 0] at h
  by_cases hr : r = ls.length
  · subst hr
    have := line_at ls h1 l [] h2 (.inl rfl)
    rw [List.append_nil] at this
    exact ⟨_, this⟩
  · have hlt : r < ls.length := by omega
    have e : ls = ls.take r ++ ls[r] :: ls.drop (r + 1) := by simp
    have hlen : (ls.take r).length = r := by simp; omega
    have := line_at (ls.take r) (fun x hx => h1 x (List.mem_of_mem_take hx)) ls[r] ('\n' :: (ended (ls.drop (r + 1)) ++ l))
      (h1 _ (List.getElem_mem hlt)) (.inr ⟨_, rfl⟩)
    rw [hlen] at this
    refine ⟨ls[r], ?_⟩
    rw [← this]
    congr 1
    have e2 := (congrArg ended e).trans (ended_append _ _)
    rw [e2, ended]
    simp only [List.append_assoc, List.cons_append]

/-- Later places have later locations. -/
theorem rowCol_mono (s : List Char) {a b : Nat} (h : a ≤ b) : (rowCol (rows s) a).1 ≤ (rowCol (rows s) b).1 ∧
    ((rowCol (rows s) a).1 = (rowCol (rows s) b).1 → (rowCol (rows s) b).2 = (rowCol (rows s) a).2 + (b - a)) ∧
    ∀ l, line s (rowCol (rows s) a).1 = some l → (rowCol (rows s) a).1 < (rowCol (rows s) b).1 → (rowCol (rows s) a).2 ≤ blen l := by
  obtain ⟨p, l, x, e, hp, hl, hx, ha, ha1, ha2⟩ := rowCol_place s a
  obtain ⟨q, m, y, e', hq, hm, hy, hb, hb1, hb2⟩ := rowCol_place s b
  have ee := e.symm.trans e'
  rw [ha, hb]
  refine ⟨?_, ?_, ?_⟩
  · rcases Nat.lt_or_ge q.length p.length with hlt | hge
    · obtain ⟨h1, h2⟩ := ended_prefix_lt q p m y (l ++ x) hq hp hm hy ee.symm hlt
      have := hb2 h2
      omega
    · exact hge
  · intro hlen
    obtain ⟨rfl, -⟩ := prefix_unique p q _ _ hp hq ee hlen
    simp only; omega
  · intro l' hl' hlt
    obtain ⟨-, h2⟩ := ended_prefix_lt p q l x (m ++ y) hp hq hl hx ee hlt
    have hl2 := line_at p hp l x hl hx
    rw [← e] at hl2
    simp only at hl'
    rw [hl2] at hl'
    cases hl'
    have := ha2 h2
    simp only; omega

theorem infos_some (s : List Char) (start stop : Nat × Nat) : ∀ (n row : Nat), (∀ r, row ≤ r → r < row + n → ∃ i, lineInfo s start stop r = some i) →
    ∃ is, infos s start stop row n = some is ∧ is.length = n
  | 0, row, _ => ⟨[], rfl, rfl⟩
  | n + 1, row, h => by
    obtain ⟨i, hi⟩ := h row (Nat.le_refl _) (by omega)
    obtain ⟨is, his, hlen⟩ := infos_some s start stop n (row + 1) fun r h1 h2 => h r (by omega) (by omega)
    exact ⟨i :: is, by rw [infos, hi, his], by simp [hlen]⟩

theorem lineInfo_some (s : List Char) {a b : Nat} (h : a ≤ b) {r : Nat} (h1 : (rowCol (rows s) a).1 ≤ r) (h2 : r ≤ (rowCol (rows s) b).1) :
    ∃ i, lineInfo s (rowCol (rows s) a) (rowCol (rows s) b) r = some i := by
  obtain ⟨l, hl⟩ := line_some (Nat.lt_of_le_of_lt h2 (row_line (s := s) (off := b) rfl))
  obtain ⟨m1, m2, m3⟩ := rowCol_mono s h
  rw [lineInfo, hl]
  simp only [highlighted]
  split
  · rename_i hr
    have := m2 (hr.1.symm.trans hr.2)
    rw [sub, if_pos (by omega)]
    exact ⟨_, rfl⟩
  · rename_i hr
    split
    · rename_i hr'
      have := m3 l (by rw [← hr']; exact hl) (by
        rcases Nat.lt_or_ge (rowCol (rows s) a).1 (rowCol (rows s) b).1 with hlt | hge
        · exact hlt
        · exact absurd ⟨hr', by omega⟩ hr)
      rw [sub, if_pos this]
      exact ⟨_, rfl⟩
    · split <;> exact ⟨_, rfl⟩

theorem report_some (name : Option (List Char)) (s : List Char) {a b : Nat} (h : a ≤ b) : ∃ t, report name s a b = some t := by
  have m1 := (rowCol_mono s h).1
  obtain ⟨is, his, hlen⟩ := infos_some s (rowCol (rows s) a) (rowCol (rows s) b) ((rowCol (rows s) b).1 + 1 - (rowCol (rows s) a).1)
    (rowCol (rows s) a).1 fun r h1 h2 => lineInfo_some s h h1 (by omega)
  rw [report]
  simp only [his]
  cases is with
  | nil => simp at hlen; omega
  | cons i is => exact ⟨_, rfl⟩

theorem replicate_map (x : Char) (l : List Char) : List.replicate l.length x = l.map fun _ => x := by
  induction l with
  | nil => rfl
  | cons c l ih => simp [List.replicate_succ, ih]

theorem report_line (name : Option (List Char)) (ls : List (List Char)) (h : ∀ l ∈ ls, OneLine l) (pre part post rest : List Char)
    (hl : OneLine (pre ++ part ++ post)) (hr : rest = [] ∨ ∃ t, rest = '\n' :: t) :
    report name (ended ls ++ (pre ++ part ++ post ++ rest)) (blen (ended ls) + blen pre) (blen (ended ls) + blen pre + blen part) =
    some (title name ++ ("  ".toList ++ lineName ls.length ++ " | ".toList ++ (pre ++ part ++ post) ++ ['\n'] ++
        (List.replicate (2 + (lineName ls.length).length) ' ' ++ " | ".toList ++ highlight (blen pre) (blen part)))) := by
  have h1 : OneLine pre := fun hm => hl (by simp [hm])
  have h2 : OneLine (pre ++ part) := fun hm => hl (by simp at hm; simp; rcases hm with hm | hm <;> simp [hm])
  have e1 : rowCol (rows (ended ls ++ (pre ++ part ++ post ++ rest))) (blen (ended ls) + blen pre) = (ls.length, blen pre) := by
    have := rowCol_at ls h pre (part ++ (post ++ rest)) h1 0 0
    rw [rowCol, rows_eq]
    simpa using this
  have e2 : rowCol (rows (ended ls ++ (pre ++ part ++ post ++ rest))) (blen (ended ls) + blen pre + blen part) =
      (ls.length, blen pre + blen part) := by
    have := rowCol_at ls h (pre ++ part) (post ++ rest) h2 0 0
    rw [rowCol, rows_eq]
    simpa [blen_append, Nat.add_assoc] using this
  have e3 := line_at ls h (pre ++ part ++ post) rest hl hr
  have e4 : ls.length + 1 - ls.length = 1 := by omega
  rw [report, e1, e2]
  simp only [e4, infos, lineInfo, e3, highlighted, and_self, if_true, sub]
  rw [if_pos (by omega)]
  have e5 : 2 + (lineName ls.length).length - (lineName ls.length).length = 2 := by omega
  simp only [Option.map_some, List.foldl_cons, List.foldl_nil, printed, Nat.zero_max, e5, Nat.add_sub_cancel_left, List.append_nil]
  congr 2
  simp [List.append_assoc]

/-! ## Programs in Rust macros -/

/-- The rows of given lines. -/
def lineRows : Nat → List (List Char) → List (Nat × Nat)
  | _, [] => []
  | k, l :: ls => (k, blen l) :: lineRows (k + blen l + 1) ls

theorem rowsAt_joined : ∀ (ls : List (List Char)) (k : Nat), ls ≠ [] → (∀ l ∈ ls, OneLine l) → rowsAt k (joined ls) = lineRows k ls
  | [], _, h, _ => absurd rfl h
  | [l], k, _, h => rowsAt_last (h l (by simp)) k
  | l :: m :: ls, k, _, h => by
    rw [joined, rowsAt_line (h l (by simp)), rowsAt_joined (m :: ls) _ (by simp) fun x hx => h x (List.mem_cons_of_mem _ hx)]
    rfl

theorem lineRows_get (ls : List (List Char)) (k i : Nat) :
    (lineRows k ls)[i]? = (ls[i]?).map fun l => ((ls.take i).foldl (fun n l => n + blen l + 1) k, blen l) := by
  induction ls generalizing k i with
  | nil => simp [lineRows]
  | cons l ls ih =>
    cases i with
    | zero => simp [lineRows]
    | succ i => simp [lineRows, ih]

theorem mapM_some {α β : Type} (f : α → Option β) : ∀ (l : List α) (r : List β), l.map f = r.map some → l.mapM f = some r
  | [], [], _ => rfl
  | [], _ :: _, h => by simp at h
  | _ :: _, [], h => by simp at h
  | a :: l, b :: r, h => by
    simp only [List.map_cons, List.cons.injEq] at h
    rw [List.mapM_cons, h.1, mapM_some f l r h.2]
    rfl

theorem macroRows_eq (first : Nat) (ls : List (List Char)) : macroRows first ls = some (List.replicate first (0, 0) ++ lineRows 0 ls) := by
  apply mapM_some
  apply List.ext_getElem?
  intro i
  simp only [List.getElem?_map, List.getElem?_append, List.length_replicate, List.getElem?_replicate, lineRows_get]
  by_cases h1 : i < first
  · have : i < first + ls.length := by omega
    simp [h1, this, macroRow]
  · simp only [h1, if_false]
    by_cases h2 : i < first + ls.length
    · have h3 : i - first < ls.length := by omega
      rw [List.getElem?_range h2]
      simp [macroRow, h1, h3]
    · have h3 : ls.length ≤ i - first := by omega
      rw [List.getElem?_eq_none (by simp; omega)]
      rw [List.getElem?_eq_none h3]; rfl

theorem rowColFrom_shift (s : List Char) (off i : Nat) :
    rowColFrom off i (rowsAt 0 s) = (i + (rowCol (rows s) off).1, (rowCol (rows s) off).2) := by
  rw [rowCol, rows_eq]
  obtain ⟨ls, l, rfl, h, hl⟩ := lines_of s
  rcases place ls l off with ⟨pre, m, post, rfl, h1, h2⟩ | h1
  · have e : ended (pre ++ m :: post) ++ l = ended pre ++ (m ++ '\n' :: (ended post ++ l)) := by simp [ended_append, ended]
    have hp : ∀ x ∈ pre, OneLine x := fun x hx => h x (List.mem_append_left _ hx)
    have hm : OneLine m := h m (by simp)
    rw [e, rowColFrom_in pre hp hm (by omega) (by omega), rowColFrom_in pre hp hm (by omega) (by omega)]; simp
  · rw [rowColFrom_end ls h hl (by omega), rowColFrom_end ls h hl (by omega)]; simp

theorem rowColFrom_before (s : List Char) (off : Nat) : ∀ (n i : Nat),
    rowColFrom off i (List.replicate n (0, 0) ++ rowsAt 0 s) = rowColFrom off (i + n) (rowsAt 0 s)
  | 0, _ => rfl
  | n + 1, i => by
    have : ∃ m r, List.replicate n (0, 0) ++ rowsAt 0 s = (0, m) :: r := by
      cases n with
      | zero => exact rowsAt_head 0 s
      | succ n => exact ⟨0, List.replicate n (0, 0) ++ rowsAt 0 s, rfl⟩
    obtain ⟨m, r, e⟩ := this
    rw [List.replicate_succ, List.cons_append, e, rowColFrom_skip (Nat.zero_le _), ← e, rowColFrom_before s off n (i + 1)]
    congr 1; omega

theorem joined_split : ∀ (pre : List (List Char)) (m : List Char) (post : List (List Char)),
    ∃ rest, joined (pre ++ m :: post) = ended pre ++ (m ++ rest) ∧ (rest = [] ∨ ∃ t, rest = '\n' :: t)
  | [], m, [] => ⟨[], by simp [joined, ended], .inl rfl⟩
  | [], m, p :: post => ⟨'\n' :: joined (p :: post), by simp [joined, ended], .inr ⟨_, rfl⟩⟩
  | l :: pre, m, post => by
    obtain ⟨rest, e, h⟩ := joined_split pre m post
    refine ⟨rest, ?_, h⟩
    cases hp : pre ++ m :: post with
    | nil => simp at hp
    | cons x xs =>
      rw [List.cons_append, hp, joined, ← hp, e]
      simp [ended]

/-! ## Parts of several lines -/

theorem infos_rest (P ms : List (List Char)) (hP : ∀ l ∈ P, OneLine l) (hm : ∀ l ∈ ms, OneLine l) (last rest : List Char) (hl : OneLine last)
    (hr : rest = [] ∨ ∃ t, rest = '\n' :: t) (start stop : Nat × Nat) (h1 : start.1 < P.length) (h2 : stop.1 = P.length + ms.length) :
    infos (ended P ++ (ended ms ++ (last ++ rest))) start stop P.length (ms.length + 1) =
      some ((ms.zipIdx P.length).map (fun x => (lineName x.2, x.1, [])) ++ [(lineName stop.1, last, List.replicate stop.2 '^')]) := by
  induction ms generalizing P with
  | nil =>
    have e := line_at P hP last rest hl hr
    simp only [List.length_nil, Nat.add_zero] at h2
    have n1 : ¬ (P.length = start.1 ∧ P.length = stop.1) := by omega
    have n2 : P.length ≠ start.1 := by omega
    simp only [ended, List.nil_append, List.length_nil, Nat.zero_add, infos, lineInfo, e, highlighted, n1, if_false, n2, h2, if_true, Option.map_some, highlight, List.replicate_zero]
    simp [h2]
  | cons m ms ih =>
    have e := line_at P hP m ('\n' :: (ended ms ++ (last ++ rest))) (hm m (by simp)) (.inr ⟨_, rfl⟩)
    have hP' : ∀ l ∈ P ++ [m], OneLine l := by
      intro l hl'
      rcases List.mem_append.mp hl' with h | h
      · exact hP l h
      · simp only [List.mem_singleton] at h; subst h; exact hm _ (by simp)
    have := ih (P ++ [m]) hP' (fun l hl' => hm l (List.mem_cons_of_mem _ hl')) (by simp; omega) (by simp only [List.length_append, List.length_cons, List.length_nil] at h2 ⊢; omega)
    rw [ended_append] at this
    simp only [ended, List.length_append, List.length_cons, List.length_nil, Nat.zero_add, List.append_assoc, List.cons_append, List.nil_append] at this
    have n1 : ¬ (P.length = start.1 ∧ P.length = stop.1) := by omega
    have n2 : P.length ≠ start.1 := by omega
    have n3 : P.length ≠ stop.1 := by simp only [List.length_cons] at h2; omega
    rw [List.length_cons, infos]
    simp only [ended, List.append_assoc, List.cons_append, lineInfo, e, highlighted, n1, if_false, n2, n3, Option.map_some, highlight, List.replicate_zero, List.nil_append, this]
    simp [List.zipIdx_cons]

theorem infos_span (bs ms : List (List Char)) (hb : ∀ l ∈ bs, OneLine l) (hm : ∀ l ∈ ms, OneLine l) (a t u b rest : List Char) (h1 : OneLine (a ++ t)) (h2 : OneLine (u ++ b))
    (hr : rest = [] ∨ ∃ t, rest = '\n' :: t) (s : List Char) (hs : s = ended (bs ++ (a ++ t) :: ms) ++ (u ++ b ++ rest)) :
    infos s (rowCol (rows s) (blen (ended bs ++ a))) (rowCol (rows s) (blen (ended (bs ++ (a ++ t) :: ms) ++ u)))
        (rowCol (rows s) (blen (ended bs ++ a))).1
        ((rowCol (rows s) (blen (ended (bs ++ (a ++ t) :: ms) ++ u))).1 + 1 - (rowCol (rows s) (blen (ended bs ++ a))).1) =
      some ((lineName bs.length, a ++ t, List.replicate (blen a) ' ' ++ List.replicate (blen t) '^') ::
        ((ms.zipIdx (bs.length + 1)).map (fun x => (lineName x.2, x.1, [])) ++ [(lineName (bs.length + 1 + ms.length), u ++ b, List.replicate (blen u) '^')])) := by
  have hall : ∀ l ∈ bs ++ (a ++ t) :: ms, OneLine l := by
    intro l hl
    rcases List.mem_append.mp hl with h | h
    · exact hb l h
    · rcases List.mem_cons.mp h with rfl | h
      · exact h1
      · exact hm l h
  have ha : OneLine a := fun h => h1 (List.mem_append_left _ h)
  have hu : OneLine u := fun h => h2 (List.mem_append_left _ h)
  have es : s = ended bs ++ (a ++ t ++ '\n' :: (ended ms ++ (u ++ b ++ rest))) := by
    rw [hs, ended_append, ended]; simp [List.append_assoc]
  have e1 : rowCol (rows s) (blen (ended bs ++ a)) = (bs.length, blen a) := by
    have := rowCol_at bs hb a (t ++ '\n' :: (ended ms ++ (u ++ b ++ rest))) ha 0 0
    rw [rowCol, rows_eq, es, blen_append]
    simpa [List.append_assoc] using this
  have e2 : rowCol (rows s) (blen (ended (bs ++ (a ++ t) :: ms) ++ u)) = (bs.length + 1 + ms.length, blen u) := by
    have := rowCol_at (bs ++ (a ++ t) :: ms) hall u (b ++ rest) hu 0 0
    rw [rowCol, rows_eq, hs, blen_append]
    simp only [Nat.zero_add, List.length_append, List.length_cons, ← List.append_assoc] at this ⊢
    rw [this]
    congr 1
    omega
  have e3 := line_at bs hb (a ++ t) ('\n' :: (ended ms ++ (u ++ b ++ rest))) h1 (.inr ⟨_, rfl⟩)
  have hP : ∀ l ∈ bs ++ [a ++ t], OneLine l := by
    intro l hl
    rcases List.mem_append.mp hl with h | h
    · exact hb l h
    · simp only [List.mem_singleton] at h; subst h; exact h1
  have e4 := infos_rest (bs ++ [a ++ t]) ms hP hm (u ++ b) rest h2 hr (bs.length, blen a) (bs.length + 1 + ms.length, blen u) (by simp) (by simp)
  have es' : ended (bs ++ [a ++ t]) ++ (ended ms ++ (u ++ b ++ rest)) = s := by
    rw [es, ended_append]; simp [ended, List.append_assoc]
  rw [es'] at e4
  rw [← es] at e3
  rw [e1, e2]
  simp only
  rw [show bs.length + 1 + ms.length + 1 - bs.length = (ms.length + 1) + 1 by omega, infos]
  have hlen : (bs ++ [a ++ t]).length = bs.length + 1 := by simp
  rw [hlen] at e4
  have n1 : ¬ (bs.length = bs.length ∧ bs.length = bs.length + 1 + ms.length) := by omega
  have n2 : bs.length ≠ bs.length + 1 + ms.length := by omega
  have e5 : lineInfo s (bs.length, blen a) (bs.length + 1 + ms.length, blen u) bs.length =
      some (lineName bs.length, a ++ t, List.replicate (blen a) ' ' ++ List.replicate (blen t) '^') := by
    simp [lineInfo, e3, highlighted, n2, sub, blen_append, highlight]
  rw [e5, e4]

theorem count_printed (pad : Nat) (is : List (List Char × List Char × List Char)) (h : ∀ x ∈ is, '\n' ∉ x.1 ∧ '\n' ∉ x.2.1 ∧ '\n' ∉ x.2.2) :
    (printed pad is).count '\n' = is.length := by
  induction is with
  | nil => rfl
  | cons r is ih =>
    obtain ⟨h1, h2, h3⟩ := h r (by simp)
    have hsp : ∀ n, (List.replicate n ' ').count '\n' = 0 := fun n => by simp [List.count_replicate]
    have hbar : (" | ".toList).count '\n' = 0 := by decide
    have hnl : (['\n'] : List Char).count '\n' = 1 := by decide
    obtain ⟨n, l, k⟩ := r
    simp only [printed, List.count_append, hsp, hbar, hnl, List.count_eq_zero.mpr h1, List.count_eq_zero.mpr h2, List.count_eq_zero.mpr h3, List.length_cons,
      ih (fun r hr => h r (List.mem_cons_of_mem _ hr))]
    omega

theorem lineName_oneLine (n : Nat) : '\n' ∉ lineName n := by
  intro hn
  have : ('\n' : Char).isDigit = true := by
    have h1 : lineName n = Nat.toDigits 10 (n + 1) := by simp [lineName, toString, Nat.repr]
    rw [h1] at hn
    exact Nat.isDigit_of_mem_toDigits (by decide) (by decide) hn
  exact absurd this (by decide)

theorem blen_ge (a : List Char) : a.length ≤ blen a := by
  induction a with
  | nil => exact Nat.le_refl _
  | cons c a ih => have := Char.utf8Size_pos c; simp only [blen, List.length_cons]; omega

theorem ascii_of_blen (a : List Char) (h : blen a = a.length) : Ascii a := by
  induction a with
  | nil => simp [Ascii]
  | cons x a ih =>
    have hx := Char.utf8Size_pos x
    have ha := blen_ge a
    simp only [blen, List.length_cons] at h
    intro c hc
    rcases List.mem_cons.mp hc with rfl | hc
    · omega
    · exact ih (by omega) c hc

end Scallop.Loc
