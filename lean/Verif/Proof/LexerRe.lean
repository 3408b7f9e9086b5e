import Verif.Spec.Lexer

/-! # Regular expressions: what is computed is what they stand for -/

namespace Scallop.Lexer
namespace Re

theorem matches_seq {a b : Re} {w : List Char} : (Re.seq a b).Matches w ↔ ∃ u v, w = u ++ v ∧ a.Matches u ∧ b.Matches v := by
  constructor
  · intro h; cases h with | seq h h' => exact ⟨_, _, rfl, h, h'⟩
  · rintro ⟨u, v, rfl, h, h'⟩; exact .seq h h'

theorem matches_alt {a b : Re} {w : List Char} : (Re.alt a b).Matches w ↔ a.Matches w ∨ b.Matches w := by
  constructor
  · intro h; cases h with | altL h => exact .inl h | altR h => exact .inr h
  · rintro (h | h)
    · exact .altL h
    · exact .altR h

theorem matches_chr {p : Char → Bool} {w : List Char} : (Re.chr p).Matches w ↔ ∃ c, w = [c] ∧ p c = true := by
  constructor
  · intro h; cases h with | chr h => exact ⟨_, rfl, h⟩
  · rintro ⟨c, rfl, h⟩; exact .chr h

theorem matches_ch {c : Char} {w : List Char} : (ch c).Matches w ↔ w = [c] := by
  rw [ch, matches_chr]; constructor
  · rintro ⟨d, rfl, h⟩; simp at h; rw [h]
  · rintro rfl; exact ⟨c, rfl, by simp⟩

theorem matches_eps {w : List Char} : Re.eps.Matches w ↔ w = [] := by
  constructor
  · intro h; cases h; rfl
  · rintro rfl; exact .eps

theorem not_matches_fail {w : List Char} : ¬ Re.fail.Matches w := fun h => nomatch h

theorem matches_mkSeq {a b : Re} {w : List Char} : (mkSeq a b).Matches w ↔ (Re.seq a b).Matches w := by
  unfold mkSeq
  split
  · rw [matches_seq]; constructor
    · exact fun h => absurd h not_matches_fail
    · rintro ⟨_, _, _, h, _⟩; exact absurd h not_matches_fail
  · rw [matches_seq]; constructor
    · exact fun h => ⟨[], w, rfl, .eps, h⟩
    · rintro ⟨u, v, rfl, h, h'⟩; rw [matches_eps] at h; subst h; exact h'
  · exact Iff.rfl

theorem matches_mkAlt {a b : Re} {w : List Char} : (mkAlt a b).Matches w ↔ (Re.alt a b).Matches w := by
  unfold mkAlt
  split
  · rw [matches_alt]; exact ⟨.inr, fun h => h.elim (fun h => absurd h not_matches_fail) id⟩
  · rw [matches_alt]; exact ⟨.inl, fun h => h.elim id (fun h => absurd h not_matches_fail)⟩
  · exact Iff.rfl

theorem nullable_iff (r : Re) : r.nullable = true ↔ r.Matches [] := by
  induction r with
  | fail => exact ⟨(nomatch ·), fun h => absurd h not_matches_fail⟩
  | eps => exact ⟨fun _ => .eps, fun _ => rfl⟩
  | chr p =>
    rw [matches_chr]
    constructor
    · intro h; cases h
    · rintro ⟨_, h, _⟩; cases h
  | seq a b iha ihb =>
    rw [matches_seq]; simp only [nullable, Bool.and_eq_true, iha, ihb]
    constructor
    · exact fun ⟨h, h'⟩ => ⟨[], [], rfl, h, h'⟩
    · rintro ⟨u, v, h, h1, h2⟩
      have := List.append_eq_nil_iff.1 h.symm
      rw [this.1] at h1; rw [this.2] at h2; exact ⟨h1, h2⟩
  | alt a b iha ihb => rw [matches_alt]; simp only [nullable, Bool.or_eq_true, iha, ihb]
  | star a _ => exact ⟨fun _ => .starNil, fun _ => rfl⟩

theorem star_cons {a : Re} {c : Char} {w : List Char} (h : (Re.star a).Matches (c :: w)) :
    ∃ u v, w = u ++ v ∧ a.Matches (c :: u) ∧ (Re.star a).Matches v := by
  generalize hr : Re.star a = r at h
  generalize hx : c :: w = x at h
  induction h with
  | eps | chr | seq | altL | altR => cases hr
  | starNil => cases hx
  | @starCons a' u v h h' _ ih =>
    cases hr
    cases u with
    | nil => exact ih rfl hx
    | cons d u =>
      cases hx
      exact ⟨u, v, rfl, h, h'⟩

theorem deriv_iff (r : Re) (c : Char) : ∀ w, (r.deriv c).Matches w ↔ r.Matches (c :: w) := by
  induction r with
  | fail => exact fun w => ⟨fun h => absurd h not_matches_fail, fun h => absurd h not_matches_fail⟩
  | eps => exact fun w => ⟨fun h => absurd h not_matches_fail, fun h => by rw [matches_eps] at h; cases h⟩
  | chr p =>
    intro w; rw [matches_chr]; unfold deriv
    split
    · rename_i hp
      rw [matches_eps]; constructor
      · rintro rfl; exact ⟨c, rfl, hp⟩
      · rintro ⟨d, h, _⟩; cases h; rfl
    · rename_i hp
      exact ⟨fun h => absurd h not_matches_fail, fun ⟨d, h, h'⟩ => by cases h; exact absurd h' hp⟩
  | seq a b iha ihb =>
    intro w
    have key : (Re.seq a b).Matches (c :: w) ↔
        (∃ u v, w = u ++ v ∧ a.Matches (c :: u) ∧ b.Matches v) ∨ (a.Matches [] ∧ b.Matches (c :: w)) := by
      rw [matches_seq]; constructor
      · rintro ⟨u, v, h, h1, h2⟩
        cases u with
        | nil => simp only [List.nil_append] at h; subst h; exact .inr ⟨h1, h2⟩
        | cons d u => cases h; exact .inl ⟨u, v, rfl, h1, h2⟩
      · rintro (⟨u, v, rfl, h1, h2⟩ | ⟨h1, h2⟩)
        · exact ⟨c :: u, v, rfl, h1, h2⟩
        · exact ⟨[], c :: w, rfl, h1, h2⟩
    rw [key]; unfold deriv
    split
    · rename_i hn
      rw [matches_mkAlt, matches_alt, matches_mkSeq, matches_seq, ihb]
      simp only [iha, (nullable_iff a).1 hn, true_and]
    · rename_i hn
      rw [matches_mkSeq, matches_seq]
      simp only [iha]
      exact ⟨.inl, fun h => h.elim id fun h => absurd ((nullable_iff a).2 h.1) hn⟩
  | alt a b iha ihb =>
    intro w; unfold deriv; rw [matches_mkAlt, matches_alt, matches_alt, iha, ihb]
  | star a iha =>
    intro w; unfold deriv; rw [matches_mkSeq, matches_seq]; constructor
    · rintro ⟨u, v, rfl, h, h'⟩; exact .starCons ((iha _).1 h) h'
    · intro h
      obtain ⟨u, v, e, h1, h2⟩ := star_cons h
      exact ⟨u, v, e, (iha _).2 h1, h2⟩

theorem matches_text : ∀ {l w : List Char}, (text l).Matches w ↔ w = l
  | [], _ => matches_eps
  | [_], _ => matches_ch
  | c :: d :: l, w => by
    rw [text, matches_seq]
    · constructor
      · rintro ⟨u, v, rfl, h, h'⟩; rw [matches_ch] at h; rw [matches_text] at h'; subst h; subst h'; rfl
      · rintro rfl; exact ⟨[c], d :: l, rfl, matches_ch.2 rfl, matches_text.2 rfl⟩
    · intro h; cases h

theorem longest_ne_none {r : Re} {v : List Char} (u : List Char) : r.Matches u → r.longest (u ++ v) ≠ none := by
  induction u generalizing r with
  | nil =>
    intro h
    have hn := (nullable_iff r).2 h
    cases v with
    | nil => simp [longest, hn]
    | cons d v =>
      simp only [List.nil_append, longest, hn, if_true]
      cases (r.deriv d).longest v <;> simp
  | cons c u ih =>
    intro h
    have := ih ((deriv_iff r c u).2 h)
    simp only [List.cons_append, longest]
    cases hd : (r.deriv c).longest (u ++ v) with
    | none => exact absurd hd this
    | some n => simp

theorem longest_some' {r : Re} (l : List Char) : ∀ (n : Nat), r.longest l = some n →
    (∃ u v, l = u ++ v ∧ u.length = n ∧ r.Matches u) ∧ ∀ u v, l = u ++ v → r.Matches u → u.length ≤ n := by
  induction l generalizing r with
  | nil =>
    intro n h
    unfold longest at h
    split at h
    · rename_i hn
      cases h
      refine ⟨⟨[], [], rfl, rfl, (nullable_iff r).1 hn⟩, fun u v e _ => ?_⟩
      rw [(List.append_eq_nil_iff.1 e.symm).1]; exact Nat.le_refl _
    · cases h
  | cons c l ih =>
    intro n h
    unfold longest at h
    cases hd : (r.deriv c).longest l with
    | some m =>
      rw [hd] at h
      cases h
      obtain ⟨⟨u, v, e, hu, hm⟩, hmax⟩ := ih _ hd
      refine ⟨⟨c :: u, v, by rw [e]; rfl, by simp [hu], (deriv_iff r c u).1 hm⟩, fun u' v' e' h' => ?_⟩
      cases u' with
      | nil => exact Nat.zero_le _
      | cons d u' =>
        cases e'
        exact Nat.succ_le_succ (hmax u' v' rfl ((deriv_iff r c u').2 h'))
    | none =>
      rw [hd] at h
      simp only at h
      split at h
      · rename_i hn
        cases h
        refine ⟨⟨[], c :: l, rfl, rfl, (nullable_iff r).1 hn⟩, fun u' v' e' h' => ?_⟩
        cases u' with
        | nil => exact Nat.zero_le _
        | cons d u' =>
          cases e'
          exact absurd hd (longest_ne_none u' ((deriv_iff r c u').2 h'))
      · cases h

theorem longest_some {r : Re} {l : List Char} {n : Nat} (h : r.longest l = some n) :
    (∃ u v, l = u ++ v ∧ u.length = n ∧ r.Matches u) ∧ ∀ u v, l = u ++ v → r.Matches u → u.length ≤ n :=
  longest_some' l n h

theorem longest_isSome {r : Re} {u v : List Char} (h : r.Matches u) : ∃ n, r.longest (u ++ v) = some n ∧ u.length ≤ n := by
  cases hl : r.longest (u ++ v) with
  | none => exact absurd hl (longest_ne_none u h)
  | some n => exact ⟨n, rfl, (longest_some hl).2 u v rfl h⟩

end Re
end Scallop.Lexer
