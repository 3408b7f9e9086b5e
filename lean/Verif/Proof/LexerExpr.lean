import Verif.Proof.LexerComment

/-! # Written expressions contain nothing that looks like a specialized name -/

namespace Scallop.Lexer
open Re

/-- If `c` is `<`, then what follows is no name, or it is not followed by `>` or a comma. -/
def OkLt (c : Syn.Tok) (ts : List Syn.Tok) : Prop :=
  c = .sym .lt → ∀ x y b, ts = x :: y :: b → x = .sym .lpar ∨ x = .sym .dollar ∨
    (y ≠ .sym .gt ∧ y ≠ .sym .geq ∧ y ≠ .sym .comma)

/-- This holds everywhere. -/
def NoBad : List Syn.Tok → Prop
  | [] => True
  | c :: ts => OkLt c ts ∧ NoBad ts

theorem okLt_written (c : Syn.Tok) (e : Syn.Ast) (k : List Syn.Tok) : OkLt c (Syn.written e ++ .sym .rpar :: k) := by
  intro _ x y b h
  cases e with
  | lit l => simp [Syn.written] at h; obtain ⟨rfl, rfl, _⟩ := h; exact .inr (.inr ⟨by simp, by simp, by simp⟩)
  | var n => simp [Syn.written] at h; obtain ⟨rfl, rfl, _⟩ := h; exact .inr (.inr ⟨by simp, by simp, by simp⟩)
  | wild => simp [Syn.written] at h; obtain ⟨rfl, rfl, _⟩ := h; exact .inr (.inr ⟨by simp, by simp, by simp⟩)
  | bin o a b' => simp [Syn.written] at h; exact .inl h.1.symm
  | un o a => simp [Syn.written] at h; exact .inl h.1.symm
  | cast a t => simp [Syn.written] at h; exact .inl h.1.symm
  | ite c' t' e' => simp [Syn.written] at h; exact .inl h.1.symm
  | call f es => simp [Syn.written] at h; exact .inr (.inl h.1.symm)
  | new f es => simp [Syn.written] at h; obtain ⟨rfl, rfl, _⟩ := h; exact .inr (.inr ⟨by simp, by simp, by simp⟩)

theorem noBad_other {c : Syn.Tok} {ts : List Syn.Tok} (hc : c ≠ .sym .lt) (h : NoBad ts) : NoBad (c :: ts) :=
  ⟨fun e => absurd e hc, h⟩

theorem unSym_ne (o : Syn.UnOp) : Syn.Tok.sym o.sym ≠ .sym .lt := by cases o <;> simp [Syn.UnOp.sym]
theorem tyTok_ne (t : Syn.Ty) : t.tok ≠ .sym .lt := by cases t <;> simp [Syn.Ty.tok]

mutual
theorem noBad_written : ∀ (e : Syn.Ast) (k : List Syn.Tok), NoBad k → NoBad (Syn.written e ++ k)
  | .lit _, _, h => noBad_other (by simp) h
  | .var _, _, h => noBad_other (by simp) h
  | .wild, _, h => noBad_other (by simp) h
  | .bin o a b, k, h => by
    have h1 : NoBad (Syn.written b ++ .sym .rpar :: k) := noBad_written b _ (noBad_other (by simp) h)
    have h2 : NoBad (.sym o.sym :: (Syn.written b ++ .sym .rpar :: k)) := ⟨okLt_written _ b k, h1⟩
    have h3 := noBad_other (c := .sym .lpar) (by simp) (noBad_written a _ h2)
    simpa [Syn.written] using h3
  | .un o a, k, h => by
    have h1 : NoBad (Syn.written a ++ .sym .rpar :: k) := noBad_written a _ (noBad_other (by simp) h)
    have h3 := noBad_other (c := .sym .lpar) (by simp) (noBad_other (unSym_ne o) h1)
    simpa [Syn.written] using h3
  | .cast a t, k, h => by
    have h1 : NoBad (.sym .as_ :: t.tok :: .sym .rpar :: k) := noBad_other (by simp) (noBad_other (tyTok_ne t) (noBad_other (by simp) h))
    have h3 := noBad_other (c := .sym .lpar) (by simp) (noBad_written a _ h1)
    simpa [Syn.written] using h3
  | .ite c t e, k, h => by
    have h1 := noBad_other (c := .sym .else_) (by simp) (noBad_written e _ (noBad_other (c := .sym .rpar) (by simp) h))
    have h2 := noBad_other (c := .sym .then_) (by simp) (noBad_written t _ h1)
    have h3 := noBad_other (c := .sym .lpar) (by simp) (noBad_other (c := .sym .if_) (by simp) (noBad_written c _ h2))
    simpa [Syn.written] using h3
  | .call f es, k, h => by
    have h1 := noBad_writtenArgs es _ (noBad_other (c := .sym .rpar) (by simp) h)
    have h3 := noBad_other (c := .sym .dollar) (by simp) (noBad_other (c := .name f) (by simp) (noBad_other (c := .sym .lpar) (by simp) h1))
    simpa [Syn.written] using h3
  | .new f es, k, h => by
    have h1 := noBad_writtenArgs es _ (noBad_other (c := .sym .rpar) (by simp) h)
    have h3 := noBad_other (c := .sym .new_) (by simp) (noBad_other (c := .name f) (by simp) (noBad_other (c := .sym .lpar) (by simp) h1))
    simpa [Syn.written] using h3

theorem noBad_writtenArgs : ∀ (es : List Syn.Ast) (k : List Syn.Tok), NoBad k → NoBad (Syn.writtenArgs es ++ k)
  | [], _, h => h
  | e :: es, k, h => by
    have h1 := noBad_written e _ (noBad_other (c := .sym .comma) (by simp) (noBad_writtenArgs es k h))
    simpa [Syn.writtenArgs] using h1
end

theorem NoBad.drop : ∀ {ts : List Syn.Tok} (a b : List Syn.Tok), NoBad ts → ts = a ++ b → NoBad b
  | _, [], _, h, e => by rw [List.nil_append] at e; exact e ▸ h
  | _, _ :: a, b, h, e => by subst e; exact NoBad.drop a b h.2 rfl

theorem StandAll.split {us vs : List Tok} : ∀ {ts : List Syn.Tok}, StandAll (us ++ vs) ts → ∃ a b, ts = a ++ b ∧ StandAll vs b := by
  induction us with
  | nil => intro ts h; exact ⟨[], ts, rfl, h⟩
  | cons u us ih =>
    intro ts h
    cases h with
    | cons _ h =>
      obtain ⟨a, b, rfl, hb⟩ := ih h
      exact ⟨_ :: a, b, rfl, hb⟩

theorem symText_inj : ∀ s s', symText s = symText s' → s = s' := by
  intro s s'; cases s <;> cases s' <;> decide

theorem stands_sym {k : String} {w : List Char} {t : Syn.Tok} {s : Syn.Sym} (h : Stands ⟨.sym k, w⟩ t) (hk : k = symText s)
    (hn : k ∉ ["true", "false", "i8", "i16", "i32", "i64", "i128", "isize", "u8", "u16", "u32", "u64", "u128", "usize", "f32", "f64",
      "char", "bool", "&str", "String", "Symbol", "DateTime", "Duration", "Entity", "Tensor"]) : t = .sym s := by
  generalize hu : (⟨.sym k, w⟩ : Tok) = u at h
  cases h with
  | sym s' =>
    simp at hu
    rw [symText_inj s s' (by rw [← hk, hu.1])]
  | name n => simp at hu
  | lit c hc => simp at hu; rw [← hu.1] at hc; simp at hc
  | @bool c hc =>
    simp at hu; rw [← hu.1] at hc
    refine absurd ?_ hn
    simp only [List.mem_cons, List.not_mem_nil, or_false] at hc
    rcases hc with h | h <;> simp [h]
  | @ty c hc =>
    simp at hu; rw [← hu.1] at hc
    exact absurd (List.mem_cons_of_mem _ (List.mem_cons_of_mem _ hc)) hn

theorem noAngles_of_noBad {us : List Tok} {ts : List Syn.Tok} (h : StandAll us ts) (hb : NoBad ts) : NoAngles us := by
  rintro a vs rfl hv
  obtain ⟨a', b, rfl, hb'⟩ := h.split
  have hnb := NoBad.drop a' b hb rfl
  cases hv with
  | @mk t t' vs h1 h2 h3 =>
    cases hb' with
    | @cons _ _ s1 _ _ hb' =>
      cases hb' with
      | @cons _ _ s2 _ hlt hb' =>
        cases hb' with
        | @cons _ _ s3 ts3 hx hb' =>
          have hlt' : s2 = .sym .lt := stands_sym hlt rfl (by decide)
          subst hlt'
          have key : ∀ (y : Syn.Tok) (b : List Syn.Tok), ts3 = y :: b → s3 = .sym .lpar ∨ s3 = .sym .dollar ∨ (y ≠ .sym .gt ∧ y ≠ .sym .geq ∧ y ≠ .sym .comma) :=
            fun y b e => hnb.2.1 rfl s3 y b (by rw [e])
          have hno : ∀ c : Char, isIdent c = false → t'.text ≠ [c] := by
            intro c hc e
            have := (name_ident h2).2 c (by rw [e]; simp)
            rw [hc] at this; cases this
          have hs3 : s3 ≠ .sym .lpar ∧ s3 ≠ .sym .dollar := by
            constructor
            · rintro rfl; cases hx with | sym => exact hno '(' (by decide) rfl
            · rintro rfl; cases hx with | sym => exact hno '$' (by decide) rfl
          cases h3 with
          | gt =>
            cases hb' with
            | cons hy _ =>
              have := stands_sym (s := .gt) hy rfl (by decide)
              subst this
              rcases key _ _ rfl with h | h | h
              · exact hs3.1 h
              · exact hs3.2 h
              · exact h.1 rfl
          | geq =>
            cases hb' with
            | cons hy _ =>
              have := stands_sym (s := .geq) hy rfl (by decide)
              subst this
              rcases key _ _ rfl with h | h | h
              · exact hs3.1 h
              · exact hs3.2 h
              · exact h.2.1 rfl
          | comma _ _ =>
            cases hb' with
            | cons hy _ =>
              have := stands_sym (s := .comma) hy rfl (by decide)
              subst this
              rcases key _ _ rfl with h | h | h
              · exact hs3.1 h
              · exact hs3.2 h
              · exact h.2.2 rfl

theorem fits_spaced : ∀ {ts : List Tok}, (∀ t ∈ ts, IsToken t) → Layout.Fits (ts.map fun t => (t, [' ']))
  | [], _ => .nil
  | [t], h => .last (h t (by simp)) (by simp [isBlank])
  | t :: t' :: ts, h => .cons (h t (by simp)) (by simp [isBlank]) (.inl (by simp)) (fits_spaced (ts := t' :: ts) fun x hx => h x (List.mem_cons_of_mem _ hx))

theorem toks_spaced (ts : List Tok) : Layout.toks (ts.map fun t => (t, [' '])) = ts := by
  simp [Layout.toks, List.map_map, Function.comp_def]

end Scallop.Lexer
