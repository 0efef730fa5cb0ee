import Verif.Model.StreamWork
import Verif.Lemmas.Work
import Verif.Lemmas.FailTail
import Verif.Lemmas.StreamGood
/-!
The work of the `Decoder`.
-/
namespace JC
open Spec

theorem refillW_fst (s : SDec) : s.refillW.1 = s.refill := rfl

theorem readLoopW_fst : ∀ n s, (readLoopW n s).1 = readLoop n s := by
  intro n
  induction n with
  | zero => intro s; rfl
  | succ n ih =>
    intro s
    unfold readLoopW readLoop
    simp only []
    have hm : (match s.err with
      | some e => ((s.pending e, s), 1)
      | none => tick (s.refillW.2 + 1) (readLoopW n s.refillW.1)).1 = (match s.err with
      | some e => (s.pending e, s)
      | none => readLoop n s.refill) := by
      cases s.err with
      | some e => rfl
      | none => simp only [tick_fst]; exact ih _
    split
    · rw [← parseValueW_fst]
      generalize parseValueW s.remain = q
      obtain ⟨q, l⟩ := q
      cases q with
      | ok v r => rfl
      | fail r e =>
        simp only []
        split
        · rfl
        · rw [tick_fst]; exact hm
    · exact hm

theorem readValueW_fst (s : SDec) : s.readValueW.1 = s.readValue := readLoopW_fst _ _

theorem callsW_fst : ∀ n s, (SDec.callsW n s).1 = SDec.calls n s
  | 0, _ => rfl
  | n + 1, s => by simp only [SDec.callsW, SDec.calls, callsW_fst n, readValueW_fst]

/-! ### A value that needs more data takes all the data there is -/

theorem okAt_rest {b rest v r : Bytes} (h : okAt b rest = .ok v r) : r.length ≤ rest.length := by
  unfold okAt at h
  injection h with _ h
  subst h
  rw [List.length_drop]; omega

theorem expDigits_rest {b t v r : Bytes} (h : (match t with
      | [] => PR.fail [] .syntax
      | d :: u => if isDigit d then okAt b (skipDigits u) else .fail [] .syntax) = .ok v r) : r.length ≤ t.length := by
  cases t with
  | nil => contradiction
  | cons d u =>
    simp only [] at h
    split at h
    · have := okAt_rest h; have := (skipDigits_suf u).length_le; simp; omega
    · contradiction

theorem numExp_rest {b x v r : Bytes} (h : numExp b x = .ok v r) : r.length ≤ x.length := by
  cases x with
  | nil => exact okAt_rest h
  | cons c t =>
    unfold numExp at h
    simp only [] at h
    by_cases hc : c = 101 ∨ c = 69
    · rw [if_pos hc] at h
      cases t with
      | nil => contradiction
      | cons d u =>
        simp only [] at h
        by_cases hd : d = 43 ∨ d = 45
        · rw [if_pos hd] at h
          have := expDigits_rest h
          simp; omega
        · rw [if_neg hd] at h
          have : r.length ≤ (d :: u).length := expDigits_rest (b := b) (v := v) h
          simp at this ⊢; omega
    · rw [if_neg hc] at h
      exact okAt_rest h

theorem numExp_more {b b' x s r v r' : Bytes} {e : Err} (h : numExp b x = .fail r e) (h2 : numExp b' (x ++ s) = .ok v r') :
    r'.length ≤ s.length := by
  cases x with
  | nil => simp [numExp, okAt] at h
  | cons c t =>
    rw [List.cons_append] at h2
    unfold numExp at h h2
    simp only [] at h h2
    by_cases hc : c = 101 ∨ c = 69
    · rw [if_pos hc] at h h2
      cases t with
      | nil =>
        rw [List.nil_append] at h2
        cases s with
        | nil => contradiction
        | cons d u =>
          simp only [] at h2
          by_cases hd : d = 43 ∨ d = 45
          · rw [if_pos hd] at h2
            have := expDigits_rest h2
            simp; omega
          · rw [if_neg hd] at h2
            exact expDigits_rest h2
      | cons d u =>
        simp only [List.cons_append] at h h2
        by_cases hd : d = 43 ∨ d = 45
        · rw [if_pos hd] at h h2
          cases u with
          | nil => exact expDigits_rest h2
          | cons f u =>
            simp only [List.cons_append] at h h2
            split at h
            · simp [okAt] at h
            · rename_i hf
              rw [if_neg hf] at h2
              contradiction
        · rw [if_neg hd] at h h2
          simp only [] at h h2
          split at h
          · simp [okAt] at h
          · rename_i hf
            rw [if_neg hf] at h2
            contradiction
    · rw [if_neg hc] at h
      simp [okAt] at h

theorem numFrac_rest {b x v r : Bytes} (h : numFrac b x = .ok v r) : r.length ≤ x.length := by
  cases x with
  | nil => exact numExp_rest h
  | cons c t =>
    unfold numFrac at h
    simp only [] at h
    split at h
    · cases t with
      | nil => contradiction
      | cons d u =>
        simp only [] at h
        split at h
        · have := numExp_rest h
          have := (skipDigits_suf u).length_le
          simp; omega
        · contradiction
    · exact numExp_rest h

theorem numFrac_more {b b' x s v r' : Bytes} {e : Err} (h : numFrac b x = .fail [] e) (h2 : numFrac b' (x ++ s) = .ok v r') :
    r'.length ≤ s.length := by
  cases x with
  | nil => exact numFrac_rest h2
  | cons c t =>
    rw [List.cons_append] at h2
    unfold numFrac at h h2
    simp only [] at h h2
    split at h
    · rename_i hc
      rw [if_pos hc] at h2
      cases t with
      | nil =>
        rw [List.nil_append] at h2
        have : numFrac b' (c :: s) = .ok v r' := by
          unfold numFrac; simp only []; rw [if_pos hc]; exact h2
        cases s with
        | nil => simp at h2
        | cons d u =>
          simp only [] at h2
          split at h2
          · have := numExp_rest h2
            have := (skipDigits_suf u).length_le
            simp; omega
          · contradiction
      | cons d u =>
        simp only [List.cons_append] at h h2
        split at h
        · rename_i hd
          rw [if_pos hd] at h2
          by_cases hu : skipDigits u = []
          · rw [hu] at h; simp [numExp, okAt] at h
          · rw [skipDigits_ext hu] at h2
            exact numExp_more h h2
        · injection h with h; contradiction
    · rename_i hc
      rw [if_neg hc] at h2
      exact numExp_more (x := c :: t) h h2

theorem parseNumber_more {x s v r : Bytes} {e : Err} (h : parseNumber x = .fail [] e) (h2 : parseNumber (x ++ s) = .ok v r) :
    r.length ≤ s.length := by
  have hs := (parseNumber_suf h2).length_le
  cases x with
  | nil => simpa using hs
  | cons c0 t0 =>
    rw [List.cons_append] at h2
    unfold parseNumber at h h2
    simp only [] at h h2
    have e1 : (if c0 = 45 then t0 ++ s else c0 :: (t0 ++ s)) = (if c0 = 45 then t0 else c0 :: t0) ++ s := by split <;> rfl
    rw [e1] at h2
    generalize (if c0 = 45 then t0 else c0 :: t0) = z at h h2
    cases z with
    | nil =>
      rw [List.nil_append] at h2
      cases s with
      | nil => simp at h2
      | cons d u =>
        simp only [] at h2
        have hsd := (skipDigits_suf u).length_le
        have hsd2 := (skipDigits_suf (d :: u)).length_le
        split at h2
        · split at h2
          · split at h2
            · have := okAt_rest h2; simp only [List.length_cons, List.length_nil] at *; omega
            · split at h2
              · have := okAt_rest h2; simp at this ⊢; omega
              · split at h2
                · contradiction
                · have := numFrac_rest h2; simp at this hsd ⊢; omega
          · have := numFrac_rest h2; omega
        · contradiction
    | cons d u =>
      simp only [List.cons_append] at h h2
      split at h
      · rename_i hd
        rw [if_pos hd] at h2
        split at h
        · rename_i h0
          rw [if_pos h0] at h2
          cases u with
          | nil => simp [okAt] at h
          | cons f u =>
            simp only [List.cons_append] at h h2
            split at h
            · simp [okAt] at h
            · rename_i hf
              rw [if_neg hf] at h2
              split at h
              · injection h with h; contradiction
              · rename_i hf2
                rw [if_neg hf2] at h2
                by_cases hu : skipDigits (f :: u) = []
                · rw [hu] at h; simp [numFrac, numExp, okAt] at h
                · rw [show f :: (u ++ s) = (f :: u) ++ s from rfl, skipDigits_ext hu] at h2
                  exact numFrac_more h h2
        · rename_i h0
          rw [if_neg h0] at h2
          by_cases hu : skipDigits (d :: u) = []
          · rw [hu] at h; simp [numFrac, numExp, okAt] at h
          · rw [show d :: (u ++ s) = (d :: u) ++ s from rfl, skipDigits_ext hu] at h2
            exact numFrac_more h h2
      · injection h with h; contradiction

theorem parseValue_more {x s v r : Bytes} {e : Err} (h : parseValue x = .fail [] e) (h2 : parseValue (x ++ s) = .ok v r) :
    x.length ≤ v.length := by
  obtain ⟨hb, j, hj⟩ := parseValue_sound h2
  have hl := congrArg List.length hb
  simp only [List.length_append] at hl
  by_cases hn : ∃ t, j = .num t
  · obtain ⟨t, rfl⟩ := hn
    generalize hjx : Json.num t = jx at hj
    cases hj <;> try contradiction
    rename_i hnum
    cases x with
    | nil => simp
    | cons c x =>
      have hd : c = 45 ∨ isDigit c = true := by
        obtain ⟨c', t', e, hc⟩ := jnumber_head hnum
        rw [e] at hb
        injection hb with hb _
        rw [hb]
        rcases hc with hc | hc
        · exact .inl hc
        · exact .inr (by simpa [isDigit, Digit] using hc)
      have hdisp : ∀ y, parseValue (c :: y) = parseNumber (c :: y) := by
        intro y
        have hd : ∀ x : UInt8, isDigit x = false → x ≠ 0x2d → c ≠ x := by
          rintro x hx1 hx2 rfl
          rcases hd with hc | hc
          · exact hx2 hc
          · rw [hx1] at hc; contradiction
        simp only [parseValue, fuelFor, parseValueF]
        rw [if_neg (hd _ (by decide) (by decide)), if_neg (hd _ (by decide) (by decide)),
          if_neg (hd _ (by decide) (by decide)), if_neg (hd _ (by decide) (by decide)),
          if_neg (hd _ (by decide) (by decide)), if_neg (hd _ (by decide) (by decide)), if_pos (by assumption)]
      rw [hdisp] at h
      rw [List.cons_append, hdisp, ← List.cons_append] at h2
      have := parseNumber_more h h2
      simp only [List.length_cons] at *
      omega
  · rcases append_cases hb with ⟨y, h3, h4⟩ | ⟨y, hy, h3, h4⟩
    · have hf : Follow j y := by
        cases j with
        | num t => exact absurd ⟨t, rfl⟩ hn
        | _ => trivial
      rw [h3, parseValue_complete hj hf] at h
      contradiction
    · rw [h3]; simp

/-! ### Rounds -/

/-- The bytes that were read or can be read. -/
def SDec.left (s : SDec) : Nat := s.remain.length + s.reader.data.length

def SDec.cap (s : SDec) : Nat := (s.mem.getD []).length

theorem refillW_snd {s : SDec} (h : s.WF) : s.refillW.2 ≤ 2 * s.remain.length
    + (skipSpacesW (s.remain ++ (readFull s.room s.reader).1)).2 := by
  obtain ⟨f1, f2, f3, f4⟩ := front_spec h
  obtain ⟨g1, g2, g3⟩ := growBuf_spec f3 f4
  have e : s.refillW.2 = s.front.2 + (if s.front.1.length - s.front.2 < minReadSize then s.front.2 else 0)
      + (skipSpacesW (((growBuf s.front.1 s.front.2).take s.front.2 ++ (readFull s.room s.reader).1
        ++ (growBuf s.front.1 s.front.2).drop (s.front.2 + (readFull s.room s.reader).1.length)).take
          (s.front.2 + (readFull s.room s.reader).1.length))).2 := rfl
  have hpre : ((growBuf s.front.1 s.front.2).take s.front.2 ++ (readFull s.room s.reader).1
        ++ (growBuf s.front.1 s.front.2).drop (s.front.2 + (readFull s.room s.reader).1.length)).take
          (s.front.2 + (readFull s.room s.reader).1.length) = s.remain ++ (readFull s.room s.reader).1 := by
    rw [g1, f1, List.take_append_of_le_length (by simp; omega), List.take_of_length_le (by simp; omega)]
  rw [e, hpre, f2]
  split <;> omega

theorem refillW_ge {s : SDec} (h : s.WF) : s.remain.length ≤ s.refillW.2 := by
  obtain ⟨f1, f2, f3, f4⟩ := front_spec h
  have e : s.refillW.2 = s.front.2 + (if s.front.1.length - s.front.2 < minReadSize then s.front.2 else 0)
      + (skipSpacesW (((growBuf s.front.1 s.front.2).take s.front.2 ++ (readFull s.room s.reader).1
        ++ (growBuf s.front.1 s.front.2).drop (s.front.2 + (readFull s.room s.reader).1.length)).take
          (s.front.2 + (readFull s.room s.reader).1.length))).2 := rfl
  rw [e, f2]
  omega

theorem refill_cap {s : SDec} (h : s.WF) : s.refill.cap = s.remain.length + s.room ∧
    (s.mem ≠ none → s.cap < s.remain.length + minReadSize → s.refill.cap = 2 * s.cap) := by
  obtain ⟨f1, f2, f3, f4⟩ := front_spec h
  obtain ⟨g1, g2, g3⟩ := growBuf_spec f3 f4
  have hl : (readFull s.room s.reader).1.length ≤ s.room := readFull_length
  have hroom : s.room = (growBuf s.front.1 s.front.2).length - s.front.2 := rfl
  have e : s.refill.cap = (growBuf s.front.1 s.front.2).length := by
    rw [refill_eq]
    simp only [SDec.cap, Option.getD_some, List.length_append, List.length_take, List.length_drop]
    omega
  refine ⟨by omega, fun hm hc => ?_⟩
  rw [e]
  cases hm2 : s.mem with
  | none => exact absurd hm2 hm
  | some m =>
    have h1 := h.some m hm2
    have h2 := h.remain_length
    have hf : s.front.1.length = s.cap := by
      unfold SDec.front SDec.cap
      rw [hm2]
      simp; omega
    unfold growBuf
    rw [hf, if_pos (by omega)]
    simp; omega

theorem readFull_fills {e : Err} {r : Reader} (h : PlainR e r) (n : Nat) :
    (readFull n r).2.2.data = [] ∨ (readFull n r).1.length = n := by
  obtain ⟨h1, h2⟩ := h
  rcases h2 with h2 | ⟨d, h2⟩
  · left; unfold readFull; rw [h2]; simp [Reader.data, h2]
  · unfold readFull
    rw [h2]
    simp only []
    split
    · right; simp; omega
    · left; rfl

theorem parseValue_nonspace {b : Bytes} {e : Err} (h : parseValue b = .fail [] e) (hb : b ≠ []) (y : Bytes) :
    skipSpaces (b ++ y) = b ++ y := by
  cases b with
  | nil => contradiction
  | cons c t =>
    have : isSpace c = false := by
      cases hc : isSpace c with
      | false => rfl
      | true =>
        exfalso
        have hc : c = 9 ∨ c = 10 ∨ c = 13 ∨ c = 32 := by
          have := ws_of_isSpace hc
          cases this <;> simp
        simp only [parseValue, fuelFor, parseValueF] at h
        rcases hc with rfl | rfl | rfl | rfl <;>
        · rw [if_neg (by decide), if_neg (by decide), if_neg (by decide), if_neg (by decide), if_neg (by decide), if_neg (by decide),
            if_neg (by decide)] at h
          injection h with h
          contradiction
    rw [List.cons_append, skipSpaces_eq]
    simp [this]

/-- The value that is returned in the end starts with what is there now. -/
theorem readLoop_starts : ∀ (n : Nat) (s s' : SDec) (v : Bytes) (e : Err), s.WF → s.remain ≠ [] → parseValue s.remain = .fail [] e →
    readLoop n s = (.ok v, s') → s.remain.length ≤ v.length := by
  have key : ∀ (n : Nat) (s s' : SDec) (v : Bytes), s.WF → s.remain ≠ [] → readLoop n s = (.ok v, s') →
      ∃ y r, parseValue (s.remain ++ y) = .ok v r := by
    intro n
    induction n with
    | zero => intro s s' v _ _ h; simp [readLoop] at h
    | succ n ih =>
      intro s s' v hw hn h
      unfold readLoop at h
      simp only [] at h
      rw [if_pos hn] at h
      cases hp : parseValue s.remain with
      | ok v' r =>
        rw [hp] at h
        simp only [Prod.mk.injEq, RV.ok.injEq] at h
        exact ⟨[], r, by rw [List.append_nil, hp, h.1]⟩
      | fail r e =>
        rw [hp] at h
        simp only [] at h
        split at h
        · simp at h
        · rename_i hr
          simp at hr
          subst hr
          cases he : s.err with
          | some e =>
            rw [he] at h
            exact absurd (congrArg Prod.fst h) (pending_ne _ _ _)
          | none =>
            rw [he] at h
            simp only [] at h
            obtain ⟨h1, _, h3, h4, _, _, h7⟩ := refill_spec hw
            rw [parseValue_nonspace hp hn] at h4
            obtain ⟨y, r, hy⟩ := ih _ _ _ h7 (by rw [h4]; simp [hn]) h
            rw [h4, List.append_assoc] at hy
            exact ⟨_, r, hy⟩
  intro n s s' v e hw hn hp h
  obtain ⟨y, r, hy⟩ := key n s s' v hw hn h
  exact parseValue_more hp hy

end JC
