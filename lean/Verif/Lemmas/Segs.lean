import Verif.Lemmas.DocOk
import Verif.Lemmas.Paint
/-! Rendered documents as color-token-reset segments. -/
namespace JC
open Spec

theorem jchars_ge {s : Bytes} (h : JChars s) : ∀ c ∈ s, 0x20 ≤ c := by
  have hx : ∀ c, HexDigit c → 0x20 ≤ c := by
    intro c hc
    simp only [HexDigit, UInt8.le_iff_toNat_le, UInt8.reduceToNat] at *; omega
  induction h with
  | nil => simp
  | plain c b h1 _ _ _ ih => intro x hx; rcases List.mem_cons.1 hx with rfl | hx; exact h1; exact ih x hx
  | esc e b he _ ih =>
    intro x hx
    simp only [List.mem_cons] at hx
    rcases hx with rfl | rfl | hx
    · decide
    · rcases he with rfl | rfl | rfl | rfl | rfl | rfl | rfl | rfl <;> decide
    · exact ih x hx
  | uni h1 h2 h3 h4 b e1 e2 e3 e4 _ ih =>
    intro x hx
    simp only [List.mem_cons] at hx
    rcases hx with rfl | rfl | rfl | rfl | rfl | rfl | hx
    · decide
    · decide
    · exact ‹∀ c, HexDigit c → 0x20 ≤ c› _ e1
    · exact ‹∀ c, HexDigit c → 0x20 ≤ c› _ e2
    · exact ‹∀ c, HexDigit c → 0x20 ≤ c› _ e3
    · exact ‹∀ c, HexDigit c → 0x20 ≤ c› _ e4
    · exact ih x hx

theorem jstring_ge {s : Bytes} (h : JString s) : ∀ c ∈ s, 0x20 ≤ c := by
  cases h with
  | mk s h =>
    intro c hc
    simp only [List.mem_cons, List.mem_append, List.not_mem_nil, or_false] at hc
    rcases hc with rfl | hc | rfl
    · decide
    · exact jchars_ge h c hc
    · decide

theorem scalarTok_ge {t : Bytes} (h : ScalarTok t) : ∀ c ∈ t, 0x20 ≤ c := by
  rcases h with rfl | rfl | rfl | h | h
  · decide
  · decide
  · decide
  · intro c hc
    have := jnumber_bytes h c hc
    simp only [Digit, ← UInt8.toNat_inj, UInt8.le_iff_toNat_le, UInt8.reduceToNat] at *; omega
  · exact jstring_ge h

theorem not_esc_of_ge {t : Bytes} (h : ∀ c ∈ t, 0x20 ≤ c) : 0x1b ∉ t := fun hc => absurd (h _ hc) (by decide)

/-- A layout without ESC. -/
def NoEsc (st : Style) : Prop := ∀ p i, st.lay = some (p, i) → 0x1b ∉ p ∧ 0x1b ∉ i

theorem noEsc_of {c : Cfg} (h : NoEscLayout c) : NoEsc (styleOf c) := by
  intro p i e
  simp only [styleOf] at e
  cases hi : c.ind with
  | none => rw [hi] at e; cases e
  | some j =>
    rw [hi] at e
    simp only [] at e
    split at e
    · cases e
    · cases e; exact h j hi

theorem margin_noEsc {st : Style} (h : NoEsc st) (d : Nat) : 0x1b ∉ margin st d := by
  unfold margin
  cases hl : st.lay with
  | none => simp
  | some l =>
    obtain ⟨p, i⟩ := l
    obtain ⟨h1, h2⟩ := h p i hl
    simp only [List.mem_append, List.mem_flatten, List.mem_replicate, not_or]
    refine ⟨h1, ?_⟩
    rintro ⟨l, ⟨_, rfl⟩, hc⟩
    exact h2 hc

theorem newline_noEsc {st : Style} (h : NoEsc st) (d : Nat) : 0x1b ∉ newline st d := by
  unfold newline
  split
  · simp
  · simp only [List.mem_cons, not_or]; exact ⟨by decide, margin_noEsc h d⟩

theorem gap_noEsc (st : Style) : 0x1b ∉ gap st := by unfold gap; split <;> decide

theorem segs_paint {st : Style} {cl : Colors} (hc : st.clrs = some cl) (r : Role) {t rest : Bytes} (ht : ∀ c ∈ t, 0x20 ≤ c)
    (hr : Segs cl rest) : Segs cl (paint st r t ++ rest) := by
  unfold paint
  rw [hc]
  by_cases h1 : r = .plain
  · subst h1; exact .lay t rest (not_esc_of_ge ht) hr
  · by_cases h2 : r = .nilBytes
    · subst h2; exact .nilBytes t rest ht hr
    · have := Segs.tok (cl := cl) r t rest h1 h2 ht hr
      cases r <;> first | exact absurd rfl h1 | exact absurd rfl h2 | exact this

mutual
theorem render_segs {st : Style} {cl : Colors} (hc : st.clrs = some cl) (hl : NoEsc st) (d : Nat) :
    ∀ x, DocOk x → ∀ rest, Segs cl rest → Segs cl (render st d x ++ rest)
  | .leaf r t, h, rest, hr => by simp only [render]; exact segs_paint hc r (scalarTok_ge h) hr
  | .arr xs, h, rest, hr => by
    simp only [render, List.append_assoc]
    apply segs_paint hc _ (by decide)
    apply renderElems_segs hc hl _ _ xs h
    refine .lay _ _ ?_ (segs_paint hc _ (by decide) hr)
    split
    · simp
    · exact newline_noEsc hl d
  | .obj xs, h, rest, hr => by
    simp only [render, List.append_assoc]
    apply segs_paint hc _ (by decide)
    apply renderMembers_segs hc hl _ _ xs h
    refine .lay _ _ ?_ (segs_paint hc _ (by decide) hr)
    split
    · simp
    · exact newline_noEsc hl d
  | .bare nl, _, rest, hr => by
    simp only [render, List.append_assoc]
    apply segs_paint hc _ (by decide)
    refine .lay _ _ ?_ (segs_paint hc _ (by decide) hr)
    split
    · exact newline_noEsc hl d
    · exact margin_noEsc hl d
theorem renderElems_segs {st : Style} {cl : Colors} (hc : st.clrs = some cl) (hl : NoEsc st) (d : Nat) (first : Bool) :
    ∀ xs, DocOkL xs → ∀ rest, Segs cl rest → Segs cl (renderElems st d first xs ++ rest)
  | [], _, rest, hr => by simpa [renderElems] using hr
  | x :: xs, h, rest, hr => by
    have ih := renderElems_segs hc hl d false xs h.2 rest hr
    have hx := render_segs hc hl d x h.1 _ ih
    have hn := Segs.lay _ _ (newline_noEsc hl d) hx
    simp only [renderElems, List.append_assoc]
    split
    · exact hn
    · exact segs_paint hc _ (by decide) hn
theorem renderMembers_segs {st : Style} {cl : Colors} (hc : st.clrs = some cl) (hl : NoEsc st) (d : Nat) (first : Bool) :
    ∀ xs, DocOkM xs → ∀ rest, Segs cl rest → Segs cl (renderMembers st d first xs ++ rest)
  | [], _, rest, hr => by simpa [renderMembers] using hr
  | (r, k, x) :: xs, h, rest, hr => by
    have ih := renderMembers_segs hc hl d false xs h.2.2 rest hr
    have hx := render_segs hc hl d x h.2.1 _ ih
    have hn := Segs.lay _ _ (newline_noEsc hl d) (segs_paint hc r (jstring_ge h.1)
      (segs_paint hc .colon (t := [0x3a]) (by decide) (.lay _ _ (gap_noEsc st) hx)))
    simp only [renderMembers, List.append_assoc]
    split
    · exact hn
    · exact segs_paint hc _ (by decide) hn
end

/-! The terminal on such text. -/

theorem term_text {t : Bytes} (h : ∀ c ∈ t, 0x20 ≤ c) (a : Bool) (r : Bytes) :
    termOk .out [] a (t ++ r) = termOk .out [] a r := by
  induction t with
  | nil => rfl
  | cons c t ih =>
    have hc := h c (by simp)
    have h1 : c ≠ 0x1b := by rintro rfl; revert hc; decide
    have h2 : c ≠ 0x0a := by rintro rfl; revert hc; decide
    simp only [List.cons_append, termOk, if_neg h1, h2, false_and, if_false]
    exact ih fun c hc => h c (by simp [hc])

theorem term_lay {w : Bytes} (h : 0x1b ∉ w) (r : Bytes) : termOk .out [] false (w ++ r) = termOk .out [] false r := by
  induction w with
  | nil => rfl
  | cons c w ih =>
    simp only [List.mem_cons, not_or] at h
    simp only [List.cons_append, termOk, if_neg (Ne.symm h.1), Bool.false_eq_true, and_false, if_false]
    exact ih h.2

theorem term_params {ps : Bytes} (h : ∀ c ∈ ps, SgrParam c) (qs : Bytes) (a : Bool) (r : Bytes) :
    termOk .csi qs a (ps ++ 0x6d :: r) = termOk .out [] (!(qs ++ ps == [] || qs ++ ps == [0x30])) r := by
  induction ps generalizing qs with
  | nil => simp [termOk]
  | cons c ps ih =>
    have hc := h c (by simp)
    have h1 : c ≠ 0x6d := by rintro rfl; revert hc; decide
    simp only [List.cons_append, termOk, if_neg h1, if_pos hc]
    rw [ih (fun c hc => h c (by simp [hc]))]
    simp

/-- A color sets some state. -/
theorem term_sgr {k : Bytes} (h : Sgr k) (a : Bool) : ∃ a', ∀ r, termOk .out [] a (k ++ r) = termOk .out [] a' r := by
  cases h with
  | none => exact ⟨a, fun r => rfl⟩
  | seq ps hp =>
    refine ⟨!(ps == [] || ps == [0x30]), fun r => ?_⟩
    have := term_params hp [] a r
    simp only [List.nil_append] at this
    rw [← this]
    simp [termOk]

theorem term_reset (a : Bool) (r : Bytes) : termOk .out [] a (reset ++ r) = termOk .out [] false r := by
  have e : reset ++ r = 0x1b :: 0x5b :: 0x30 :: 0x6d :: r := rfl
  rw [e]
  simp only [termOk]
  simp [SgrParam]

theorem sgr_colorOf {cl : Colors} (h : ColorsSgr cl) (r : Role) : Sgr (colorOf cl r) := by
  obtain ⟨h1, h2, h3, h4, h5, h6, h7, h8, h9, h10, h11, h12, h13⟩ := h
  cases r <;> simp only [colorOf] <;> try split
  all_goals first | assumption | exact .none

theorem segs_term {cl : Colors} (hcl : ColorsSgr cl) {b : Bytes} (h : Segs cl b) : termOk .out [] false b = true := by
  induction h with
  | nil => rfl
  | lay w rest hw _ ih => rw [term_lay hw, ih]
  | tok r t rest _ _ ht _ ih =>
    obtain ⟨a, ha⟩ := term_sgr (sgr_colorOf hcl r) false
    simp only [List.append_assoc]
    rw [ha, term_text ht, term_reset, ih]
  | nilBytes t rest ht _ ih =>
    obtain ⟨a, ha⟩ := term_sgr (sgr_colorOf hcl .bytes) false
    obtain ⟨a', ha'⟩ := term_sgr (sgr_colorOf hcl .null) a
    simp only [List.append_assoc]
    simp only [colorOf] at ha ha'
    rw [ha, ha', term_text ht, term_reset, term_reset, ih]

/-! Plain rendering contains no ESC. -/

theorem paint_none {st : Style} (hc : st.clrs = none) (r : Role) (t : Bytes) : paint st r t = t := by
  unfold paint; rw [hc]

mutual
theorem render_noEsc {st : Style} (hc : st.clrs = none) (hl : NoEsc st) (d : Nat) : ∀ x, DocOk x → 0x1b ∉ render st d x
  | .leaf r t, h => by simp only [render, paint_none hc]; exact not_esc_of_ge (scalarTok_ge h)
  | .arr xs, h => by
    have := renderElems_noEsc hc hl (d + 1) true xs h
    simp only [render, paint_none hc, List.mem_append, not_or]
    refine ⟨by decide, this, ?_, by decide⟩
    split
    · simp
    · exact newline_noEsc hl d
  | .obj xs, h => by
    have := renderMembers_noEsc hc hl (d + 1) true xs h
    simp only [render, paint_none hc, List.mem_append, not_or]
    refine ⟨by decide, this, ?_, by decide⟩
    split
    · simp
    · exact newline_noEsc hl d
  | .bare nl, _ => by
    simp only [render, paint_none hc, List.mem_append, not_or]
    refine ⟨by decide, ?_, by decide⟩
    split
    · exact newline_noEsc hl d
    · exact margin_noEsc hl d
theorem renderElems_noEsc {st : Style} (hc : st.clrs = none) (hl : NoEsc st) (d : Nat) (first : Bool) :
    ∀ xs, DocOkL xs → 0x1b ∉ renderElems st d first xs
  | [], _ => by simp [renderElems]
  | x :: xs, h => by
    have ih := renderElems_noEsc hc hl d false xs h.2
    have hx := render_noEsc hc hl d x h.1
    simp only [renderElems, paint_none hc, List.mem_append, not_or]
    exact ⟨by split <;> decide, newline_noEsc hl d, hx, ih⟩
theorem renderMembers_noEsc {st : Style} (hc : st.clrs = none) (hl : NoEsc st) (d : Nat) (first : Bool) :
    ∀ xs, DocOkM xs → 0x1b ∉ renderMembers st d first xs
  | [], _ => by simp [renderMembers]
  | (r, k, x) :: xs, h => by
    have ih := renderMembers_noEsc hc hl d false xs h.2.2
    have hx := render_noEsc hc hl d x h.2.1
    simp only [renderMembers, paint_none hc, List.mem_append, not_or]
    exact ⟨by split <;> decide, newline_noEsc hl d, not_esc_of_ge (jstring_ge h.1), by decide, gap_noEsc st, hx, ih⟩
end

/-- What a successful encoding of a clean value is. -/
theorem clean_success {c : Cfg} {v : GV} (h : Clean c v) {b out : Bytes} {n : Nat} {d : Int}
    (hs : enc c v b n = .done out d none) :
    ∃ x, meaning c v = .doc x ∧ DocOk x ∧ out = b ++ render (styleOf c) n x ∧ d = n := by
  have hd := enc_does c v
  have hf := clean_fine c v h
  have ho := meaning_ok c v h
  cases hm : meaning c v with
  | doc x =>
    rw [hm] at hd ho
    have := hd b n n (fun _ => rfl)
    rw [hs] at this
    cases this
    exact ⟨x, rfl, ho x rfl, rfl, rfl⟩
  | err e =>
    rw [hm] at hd
    obtain ⟨b', d', e1, _⟩ := hd b n n (fun _ => rfl)
    rw [hs] at e1; cases e1
  | wild => rw [hm] at hf; exact absurd hf id

end JC
