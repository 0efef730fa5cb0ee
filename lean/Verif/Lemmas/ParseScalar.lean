import Verif.Lemmas.Basic
/-! Soundness and completeness of the scalar scanners of `parse.go`. -/
namespace JC
open Spec

/-- A byte string that cannot extend a number: it is empty or starts with a
byte other than a digit, `.`, `e`, `E`. -/
def NumStop (r : Bytes) : Prop :=
  ∀ c, r.head? = some c → isDigit c = false ∧ c ≠ 0x2e ∧ c ≠ 0x65 ∧ c ≠ 0x45

theorem NumStop.nil : NumStop [] := by simp [NumStop]

theorem numExp_sound (p s v r : Bytes) (h : numExp (p ++ s) s = .ok v r) :
    ∃ e, s = e ++ r ∧ v = p ++ e ∧ JExp e := by
  unfold numExp at h
  split at h
  · rename_i c t
    split at h
    · rename_i hc
      -- the sign
      have key : ∀ sgn t', t = sgn ++ t' → (sgn = [] ∨ sgn = [0x2b] ∨ sgn = [0x2d]) →
          (match t' with
            | [] => PR.fail [] Err.syntax
            | d :: u => if isDigit d = true then okAt (p ++ c :: t) (skipDigits u) else PR.fail [] Err.syntax) = PR.ok v r →
          ∃ e, c :: t = e ++ r ∧ v = p ++ e ∧ JExp e := by
        intro sgn t' ht hs h
        split at h
        · contradiction
        · rename_i d u
          split at h
          · rename_i hd
            obtain ⟨ds, h1, h2, _⟩ := exists_skipDigits u
            have e : p ++ c :: t = (p ++ c :: (sgn ++ d :: ds)) ++ skipDigits u := by
              rw [ht]
              conv => lhs; rw [h1]
              simp
            rw [e, okAt_append] at h
            injection h with hv hr
            refine ⟨c :: (sgn ++ d :: ds), ?_, hv.symm, ?_⟩
            · rw [← hr, ht]
              conv => lhs; rw [h1]
              simp
            · refine .some c sgn (d :: ds) hc hs ⟨by simp, ?_⟩
              intro x hx
              rcases List.mem_cons.1 hx with rfl | hx
              · exact (isDigit_iff x).1 hd
              · exact h2 x hx
          · contradiction
      cases t with
      | nil => simp at h
      | cons d u =>
        simp only at h
        by_cases hd : d = 0x2b ∨ d = 0x2d
        · rw [if_pos hd] at h
          rcases hd with rfl | rfl
          · exact key [0x2b] u rfl (by simp) h
          · exact key [0x2d] u rfl (by simp) h
        · rw [if_neg hd] at h
          exact key [] (d :: u) rfl (by simp) h
    · rw [okAt_append] at h
      injection h with h1 h2
      exact ⟨[], by simp [h2], by simp [h1], .none⟩
  · rw [okAt_append] at h
    injection h with h1 h2
    exact ⟨[], by simp [h2], by simp [h1], .none⟩

theorem numFrac_sound (p s v r : Bytes) (h : numFrac (p ++ s) s = .ok v r) :
    ∃ f e, s = f ++ e ++ r ∧ v = p ++ f ++ e ∧ JFrac f ∧ JExp e := by
  unfold numFrac at h
  split at h
  · rename_i c t
    split at h
    · rename_i hc
      subst hc
      split at h
      · contradiction
      · rename_i d u
        split at h
        · rename_i hd
          obtain ⟨ds, h1, h2, _⟩ := exists_skipDigits u
          have e : p ++ 46 :: d :: u = (p ++ 46 :: d :: ds) ++ skipDigits u := by
            conv => lhs; rw [h1]
            simp
          rw [e] at h
          obtain ⟨ex, hs, hv, hj⟩ := numExp_sound _ _ _ _ h
          refine ⟨46 :: d :: ds, ex, ?_, hv, ?_, hj⟩
          · conv => lhs; rw [h1, hs]
            simp
          · refine .some (d :: ds) ⟨by simp, ?_⟩
            intro x hx
            rcases List.mem_cons.1 hx with rfl | hx
            · exact (isDigit_iff x).1 hd
            · exact h2 x hx
        · contradiction
    · obtain ⟨ex, hs, hv, hj⟩ := numExp_sound _ _ _ _ h
      exact ⟨[], ex, by simpa using hs, by simpa using hv, .none, hj⟩
  · obtain ⟨ex, hs, hv, hj⟩ := numExp_sound _ _ _ _ h
    exact ⟨[], ex, by simpa using hs, by simpa using hv, .none, hj⟩

theorem digit_ne_zero {d : UInt8} (hd : isDigit d = true) (h0 : d ≠ 0x30) : 0x31 ≤ d ∧ d ≤ 0x39 := by
  have h := (isDigit_iff d).1 hd
  unfold Digit at h
  simp only [UInt8.le_iff_toNat_le] at h ⊢
  have e1 : (0x30 : UInt8).toNat = 48 := rfl
  have e2 : (0x39 : UInt8).toNat = 57 := rfl
  have e3 : (0x31 : UInt8).toNat = 49 := rfl
  rw [e1, e2] at h
  rw [e2, e3]
  have : d.toNat ≠ 48 := by
    intro hh; apply h0
    apply UInt8.toNat_inj.1
    rw [hh]; rfl
  omega

theorem parseNumber_sound {b v r : Bytes} (h : parseNumber b = .ok v r) : b = v ++ r ∧ JNumber v := by
  unfold parseNumber at h
  split at h
  · contradiction
  · rename_i c0 t0
    have key : ∀ sgn s, c0 :: t0 = sgn ++ s → (sgn = [] ∨ sgn = [0x2d]) →
        (match s with
          | [] => PR.fail [] Err.syntax
          | d :: u =>
            if isDigit d = true then
              if d = 48 then
                match u with
                | [] => okAt (c0 :: t0) u
                | e :: tail =>
                  if e ≠ 46 ∧ e ≠ 101 ∧ e ≠ 69 then okAt (c0 :: t0) u
                  else if isDigit e = true then PR.fail u Err.syntax else numFrac (c0 :: t0) (skipDigits u)
              else numFrac (c0 :: t0) (skipDigits s)
            else PR.fail s Err.syntax) = PR.ok v r → c0 :: t0 = v ++ r ∧ JNumber v := by
      intro sgn s hb hs h
      split at h
      · contradiction
      · rename_i d u
        split at h
        · rename_i hd
          split at h
          · rename_i hd0
            subst hd0
            have hz : ∀ w, okAt (c0 :: t0) u = .ok v r → w = u → c0 :: t0 = v ++ r ∧ JNumber v := by
              intro w h _
              rw [hb] at h ⊢
              have e : sgn ++ 48 :: u = (sgn ++ [48]) ++ u := by simp
              rw [e, okAt_append] at h
              injection h with h1 h2
              subst h1; subst h2
              refine ⟨by simp, ?_⟩
              have := JNumber.mk sgn [48] [] [] hs .zero .none .none
              simpa using this
            cases u with
            | nil => exact hz _ h rfl
            | cons e tail =>
              simp only at h
              split at h
              · exact hz _ h rfl
              · split at h
                · contradiction
                · rename_i he
                  have hsk : skipDigits (e :: tail) = e :: tail := by simp [skipDigits, he]
                  rw [hsk, hb] at h
                  have e' : sgn ++ 48 :: e :: tail = (sgn ++ [48]) ++ e :: tail := by simp
                  rw [e'] at h
                  obtain ⟨f, ex, h1, h2, h3, h4⟩ := numFrac_sound _ _ _ _ h
                  rw [hb, h2]
                  refine ⟨by rw [h1]; simp, ?_⟩
                  exact .mk sgn [48] f ex hs .zero h3 h4
          · rename_i hd0
            obtain ⟨ds, h1, h2, _⟩ := exists_skipDigits u
            have hsk : skipDigits (d :: u) = skipDigits u := by simp [skipDigits, hd]
            rw [hsk, hb] at h
            have e : sgn ++ d :: u = (sgn ++ d :: ds) ++ skipDigits u := by
              conv => lhs; rw [h1]
              simp
            rw [e] at h
            obtain ⟨f, ex, h5, h6, h7, h8⟩ := numFrac_sound _ _ _ _ h
            rw [hb, h6]
            refine ⟨?_, ?_⟩
            · rw [e, h5]; simp
            · have hz := digit_ne_zero hd hd0
              exact .mk sgn (d :: ds) f ex hs (.pos d ds hz.1 hz.2 h2) h7 h8
        · contradiction
    by_cases hc : c0 = 45
    · subst hc
      simp only [if_true] at h
      exact key [0x2d] t0 rfl (by simp) h
    · simp only [if_neg hc] at h
      exact key [] (c0 :: t0) rfl (by simp) h

/-! completeness -/

theorem _root_.JC.Spec.JExp.head {e : Bytes} (h : JExp e) (r : Bytes) (hr : NumStop r) :
    ∀ c, (e ++ r).head? = some c → isDigit c = false ∧ c ≠ 0x2e := by
  intro c hc
  cases h with
  | none => exact ⟨(hr c hc).1, (hr c hc).2.1⟩
  | some e sgn ds he hs hd =>
    simp at hc; subst hc
    rcases he with rfl | rfl <;> decide

theorem _root_.JC.Spec.JFrac.head {f e : Bytes} (h : JFrac f) (he : JExp e) (r : Bytes) (hr : NumStop r) :
    ∀ c, (f ++ e ++ r).head? = some c → isDigit c = false := by
  intro c hc
  cases h with
  | none => exact (JExp.head he r hr c (by simpa using hc)).1
  | some ds hd => simp at hc; subst hc; decide

theorem digit_facts {d : UInt8} (h : Digit d) : d ≠ 0x2b ∧ d ≠ 0x2d ∧ d ≠ 0x2e ∧ d ≠ 0x65 ∧ d ≠ 0x45 := by
  refine ⟨?_, ?_, ?_, ?_, ?_⟩ <;> (rintro rfl; revert h; unfold Digit; decide)

theorem numExp_complete (p e r : Bytes) (he : JExp e) (hr : NumStop r) :
    numExp (p ++ (e ++ r)) (e ++ r) = .ok (p ++ e) r := by
  have hdig : ∀ c, r.head? = some c → isDigit c = false := fun c hc => (hr c hc).1
  cases he with
  | none =>
    simp only [List.nil_append, List.append_nil]
    unfold numExp
    split
    · rename_i c t
      have := hr c rfl
      rw [if_neg (by intro hh; rcases hh with hh | hh <;> simp_all)]
      exact okAt_append _ _
    · exact okAt_append _ _
  | some e sgn ds he hs hd =>
    obtain ⟨hne, hds⟩ := hd
    cases ds with
    | nil => exact absurd rfl hne
    | cons d u =>
      have hd := hds d (by simp)
      have hf := digit_facts hd
      have hdd := (isDigit_iff d).2 hd
      have hsk : skipDigits (u ++ r) = r := skipDigits_append u r (fun c hc => hds c (by simp [hc])) hdig
      simp only [List.cons_append, numExp]
      rw [if_pos he]
      have fin : okAt (p ++ e :: (sgn ++ d :: u ++ r)) r = .ok (p ++ e :: (sgn ++ d :: u)) r := by
        have : p ++ e :: (sgn ++ d :: u ++ r) = (p ++ e :: (sgn ++ d :: u)) ++ r := by simp
        rw [this, okAt_append]
      rcases hs with rfl | rfl | rfl
      · simp only [List.nil_append, List.cons_append] at fin ⊢
        simp only [hf.1, hf.2.1, or_self, if_false, hdd, if_true, hsk]
        exact fin
      · simp only [List.cons_append, List.nil_append] at fin ⊢
        simp only [true_or, if_true, hdd, hsk]
        exact fin
      · simp only [List.cons_append, List.nil_append] at fin ⊢
        simp only [or_true, if_true, hdd, hsk]
        exact fin

theorem numFrac_complete (p f e r : Bytes) (hf : JFrac f) (he : JExp e) (hr : NumStop r) :
    numFrac (p ++ (f ++ e ++ r)) (f ++ e ++ r) = .ok (p ++ f ++ e) r := by
  cases hf with
  | none =>
    simp only [List.nil_append, List.append_nil]
    have hx := numExp_complete p e r he hr
    unfold numFrac
    split
    · rename_i c t hct
      have := JExp.head he r hr c (by rw [hct]; rfl)
      rw [if_neg this.2]; exact hx
    · exact hx
  | some ds hd =>
    obtain ⟨hne, hds⟩ := hd
    cases ds with
    | nil => exact absurd rfl hne
    | cons d u =>
      have hdd := (isDigit_iff d).2 (hds d (by simp))
      have hsk : skipDigits (u ++ (e ++ r)) = e ++ r :=
        skipDigits_append u _ (fun c hc => hds c (by simp [hc])) (fun c hc => (JExp.head he r hr c hc).1)
      have hx := numExp_complete (p ++ 46 :: d :: u) e r he hr
      simp only [List.cons_append, numFrac, List.append_assoc] at hx ⊢
      simp only [if_true, hdd, hsk]
      exact hx

theorem parseNumber_complete {v r : Bytes} (hv : JNumber v) (hr : NumStop r) :
    parseNumber (v ++ r) = .ok v r := by
  obtain ⟨sgn, i, f, e, hs, hi, hf, he⟩ := hv
  have hfe := JFrac.head hf he r hr
  have body : ∀ B : Bytes, B = sgn ++ (i ++ (f ++ e ++ r)) →
      (match i ++ (f ++ e ++ r) with
          | [] => PR.fail [] Err.syntax
          | d :: u =>
            if isDigit d = true then
              if d = 48 then
                match u with
                | [] => okAt B u
                | x :: tail =>
                  if x ≠ 46 ∧ x ≠ 101 ∧ x ≠ 69 then okAt B u
                  else if isDigit x = true then PR.fail u Err.syntax else numFrac B (skipDigits u)
              else numFrac B (skipDigits (i ++ (f ++ e ++ r)))
            else PR.fail (i ++ (f ++ e ++ r)) Err.syntax) = .ok (sgn ++ i ++ f ++ e) r := by
    intro B hB
    cases hi with
    | zero =>
      have hd : isDigit 48 = true := by decide
      have hx := numFrac_complete (sgn ++ [48]) f e r hf he hr
      have hB' : B = (sgn ++ [48]) ++ (f ++ e ++ r) := by rw [hB]; simp
      simp only [List.cons_append, List.nil_append, hd, if_true]
      rw [← hB'] at hx
      generalize hu : f ++ e ++ r = u at hx hfe hB'
      cases u with
      | nil =>
        simp only
        have : f = [] ∧ e = [] ∧ r = [] := by
          simp only [List.append_assoc, List.append_eq_nil_iff] at hu; exact hu
        obtain ⟨rfl, rfl, rfl⟩ := this
        rw [hB', okAt_append]; simp
      | cons x tail =>
        have hxd := hfe x rfl
        simp only
        split
        · rename_i hne
          -- then f = [] and e = []
          have hf0 : f = [] := by
            cases hf with
            | none => rfl
            | some ds hd => simp at hu; exact absurd hu.1.symm hne.1
          subst hf0
          have he0 : e = [] := by
            cases he with
            | none => rfl
            | some e sgn ds he hs hd =>
              simp at hu
              rcases he with rfl | rfl
              · exact absurd hu.1.symm hne.2.1
              · exact absurd hu.1.symm hne.2.2
          subst he0
          simp at hu; subst hu
          rw [hB', okAt_append]; simp
        · have hsk : skipDigits (x :: tail) = x :: tail := by simp [skipDigits, hxd]
          rw [if_neg (by simp [hxd]), hsk]; exact hx
    | pos d ds h1 h2 hds =>
      have hdd : isDigit d = true := by
        rw [isDigit_iff]; unfold Digit
        refine ⟨?_, h2⟩
        rw [UInt8.le_iff_toNat_le] at h1 ⊢
        have e1 : (0x30 : UInt8).toNat = 48 := rfl
        have e3 : (0x31 : UInt8).toNat = 49 := rfl
        omega
      have hne : d ≠ 48 := by rintro rfl; revert h1; decide
      simp only [List.cons_append, hdd, hne, if_true, if_false, skipDigits]
      rw [skipDigits_append ds _ hds hfe]
      have hx := numFrac_complete (sgn ++ d :: ds) f e r hf he hr
      rw [hB]
      simp only [List.append_assoc, List.cons_append] at hx ⊢
      exact hx
  have ib : ∃ d u, i = d :: u ∧ d ≠ 45 := by
    cases hi with
    | zero => exact ⟨48, [], rfl, by decide⟩
    | pos d ds h1 h2 _ => exact ⟨d, ds, rfl, by rintro rfl; revert h1; decide⟩
  obtain ⟨d, u, hi', hd⟩ := ib
  rcases hs with rfl | rfl
  · have := body _ rfl
    simp only [List.nil_append] at this ⊢
    have eq : i ++ f ++ e ++ r = i ++ (f ++ e ++ r) := by simp
    rw [eq]
    unfold parseNumber
    rw [hi'] at this ⊢
    simp only [List.cons_append, hd, if_false] at this ⊢
    exact this
  · have := body _ rfl
    have eq : [45] ++ i ++ f ++ e ++ r = 45 :: (i ++ (f ++ e ++ r)) := by simp
    rw [eq]
    unfold parseNumber
    simp only [if_true]
    exact this

/-! literals -/

theorem parseNull_sound {b v r : Bytes} (h : parseNull b = .ok v r) : b = v ++ r ∧ v = bs! "null" := by
  unfold parseNull at h
  split at h
  · injection h with h1 h2
    subst h1; subst h2
    rename_i hh
    exact ⟨(List.take_append_drop 4 b).symm, hh.2⟩
  · split at h <;> contradiction

theorem parseTrue_sound {b v r : Bytes} (h : parseTrue b = .ok v r) : b = v ++ r ∧ v = bs! "true" := by
  unfold parseTrue at h
  split at h
  · injection h with h1 h2
    subst h1; subst h2
    rename_i hh
    exact ⟨(List.take_append_drop 4 b).symm, hh.2⟩
  · split at h <;> contradiction

theorem parseFalse_sound {b v r : Bytes} (h : parseFalse b = .ok v r) : b = v ++ r ∧ v = bs! "false" := by
  unfold parseFalse at h
  split at h
  · injection h with h1 h2
    subst h1; subst h2
    rename_i hh
    exact ⟨(List.take_append_drop 5 b).symm, hh.2⟩
  · split at h <;> contradiction

theorem parseNull_complete (r : Bytes) : parseNull (bs! "null" ++ r) = .ok (bs! "null") r := by
  simp [parseNull]
theorem parseTrue_complete (r : Bytes) : parseTrue (bs! "true" ++ r) = .ok (bs! "true") r := by
  simp [parseTrue]
theorem parseFalse_complete (r : Bytes) : parseFalse (bs! "false" ++ r) = .ok (bs! "false") r := by
  simp [parseFalse]

/-! strings -/

theorem scanString_sound (b : Bytes) (t : Bytes) (i : Nat) (v r : Bytes) (esc : Bool)
    (p : Bytes) (hb : b = p ++ t) (hi : i = p.length) (h : scanString b t i = .ok v r esc) :
    ∃ s, t = s ++ 0x22 :: r ∧ v = p ++ s ++ [0x22] ∧ JChars s ∧ esc = true := by
  fun_induction scanString b t i generalizing p with
  | case1 => contradiction
  | case2 => contradiction
  | case3 i c t' he ih =>
    subst hi
    obtain ⟨s, h1, h2, h3, h4⟩ := ih (p ++ [0x5c, c]) (by simp [hb]) (by simp) h
    refine ⟨0x5c :: c :: s, by simp [h1], by simp [h2], .esc _ _ ((isSimpleEsc_iff c).1 he) h3, h4⟩
  | case4 => contradiction
  | case5 i u h1 h2 h3 h4 t'' _ hu ih =>
    subst hi
    obtain ⟨s, e1, e2, e3, e4⟩ := ih (p ++ [0x5c, 0x75, h1, h2, h3, h4]) (by simp [hb]) (by simp) h
    obtain ⟨_, _, _, _, _, x1, x2, x3, x4, heq, v1, v2, v3, v4, _⟩ := parseUnicode_some hu
    injection heq with q1 heq; injection heq with q2 heq; injection heq with q3 heq
    injection heq with q4 heq
    subst q1; subst q2; subst q3; subst q4
    refine ⟨_, by rw [e1]; rfl, by simp [e2], .uni _ _ _ _ _ (.of_val v1) (.of_val v2) (.of_val v3) (.of_val v4) e3, e4⟩
  | case6 => contradiction
  | case7 => contradiction
  | case8 t i hne =>
    subst hi
    injection h with hv hr he
    refine ⟨[], ?_, ?_, .nil, he.symm⟩
    · subst hb; rw [← hr]; simp
    · subst hb; rw [← hv, List.take_append, List.take_of_length_le (by omega)]; simp
  | case9 => contradiction
  | case10 c t i h1 h2 h3 ih =>
    subst hi
    obtain ⟨s, e1, e2, e3, e4⟩ := ih (p ++ [c]) (by simp [hb]) (by simp) h
    refine ⟨c :: s, by simp [e1], by simp [e2], .plain _ _ (UInt8.not_lt.1 h3) h2 h1 e3, e4⟩

theorem scanString_complete (s : Bytes) (hs : JChars s) (p r : Bytes) :
    scanString (p ++ (s ++ 0x22 :: r)) (s ++ 0x22 :: r) p.length = .ok (p ++ s ++ [0x22]) r true := by
  induction hs generalizing p with
  | nil =>
    rw [List.nil_append]; unfold scanString
    rw [if_neg (by decide), if_pos rfl]
    have h1 : (p ++ 34 :: r).take (p.length + 1) = p ++ [] ++ [34] := by
      rw [List.take_append, List.take_of_length_le (by omega)]; simp
    have h2 : (p ++ 34 :: r).drop (p.length + 1) = r := by simp
    rw [h1, h2]
  | plain c b h1 h2 h3 _ ih =>
    simp only [List.cons_append]; unfold scanString
    rw [if_neg h3, if_neg h2, if_neg (UInt8.not_lt.2 h1)]
    have := ih (p ++ [c])
    simpa using this
  | esc e b he _ ih =>
    simp only [List.cons_append]; unfold scanString
    rw [if_pos rfl]; simp only []
    rw [if_pos ((isSimpleEsc_iff e).2 he)]
    have := ih (p ++ [0x5c, e])
    simpa using this
  | uni h1 h2 h3 h4 b g1 g2 g3 g4 _ ih =>
    obtain ⟨x1, e1⟩ := g1.val
    obtain ⟨x2, e2⟩ := g2.val
    obtain ⟨x3, e3⟩ := g3.val
    obtain ⟨x4, e4⟩ := g4.val
    simp only [List.cons_append]; unfold scanString
    rw [if_pos rfl]; simp only []
    rw [if_neg (by decide), if_pos trivial, parseUnicode_of_hex e1 e2 e3 e4]
    have := ih (p ++ [0x5c, 0x75, h1, h2, h3, h4])
    simpa using this

/-- The inside of a string literal without escapes and with printable ASCII only. -/
def PlainAscii (s : Bytes) : Prop := ∀ c ∈ s, isPrint c = true ∧ c ≠ 0x22 ∧ c ≠ 0x5c

theorem PlainAscii.jchars {s : Bytes} (h : PlainAscii s) : JChars s := by
  induction s with
  | nil => exact .nil
  | cons c t ih =>
    have hc := h c (by simp)
    have hp : 0x20 ≤ c := by
      have := hc.1
      simp only [isPrint, Bool.and_eq_true, decide_eq_true_eq] at this
      exact this.1
    exact .plain c t hp hc.2.1 hc.2.2 (ih (fun d hd => h d (by simp [hd])))

theorem parseStringFast_sound {b v r : Bytes} {esc : Bool} (h : parseStringFast b = .ok v r esc) :
    ∃ s, v = 0x22 :: (s ++ [0x22]) ∧ b = v ++ r ∧ JChars s ∧ (esc = false → PlainAscii s) := by
  unfold parseStringFast at h
  split at h
  · contradiction
  · contradiction
  · rename_i q t _
    split at h
    · contradiction
    · rename_i hq
      simp only [ne_eq, Decidable.not_not] at hq
      subst hq
      split at h
      · contradiction
      · rename_i k hk
        obtain ⟨p, r', rfl, rfl, hp⟩ := indexByte_some hk
        split at h
        · rename_i hc
          injection h with h1 h2 h3
          have ht : (p ++ 34 :: r').take (p.length + 1) = p ++ [34] := by
            rw [List.take_append, List.take_of_length_le (by omega)]; simp
          rw [ht, indexByte_none, asciiValidPrint_eq, List.all_append, Bool.and_eq_true, List.all_eq_true] at hc
          have hpa : PlainAscii p := by
            intro c hc'
            refine ⟨hc.2.1 c hc', ?_, ?_⟩
            · rintro rfl; exact hp hc'
            · rintro rfl; apply hc.1; simp [hc']
          have e1 : v = 34 :: (p ++ [34]) := by
            rw [← h1, List.take_succ_cons, ht]
          have e2 : r = r' := by
            rw [← h2, List.drop_succ_cons]; simp
          refine ⟨p, e1, ?_, hpa.jchars, fun _ => hpa⟩
          rw [e1, e2]; simp
        · obtain ⟨s, e1, e2, e3, e4⟩ := scanString_sound _ _ 1 v r esc [0x22] rfl rfl h
          refine ⟨s, by simpa using e2, ?_, e3, by simp [e4]⟩
          rw [e2]; simpa using e1

theorem jchars_fast {s r : Bytes} {k : Nat} (hs : JChars s)
    (hk : indexByte (s ++ 0x22 :: r) 0x22 = some k)
    (hb : indexByte ((s ++ 0x22 :: r).take (k + 1)) 0x5c = none) : k = s.length := by
  induction hs generalizing k with
  | nil => simp [indexByte] at hk; simp [hk]
  | plain c b h1 h2 h3 _ ih =>
    simp only [List.cons_append, indexByte] at hk
    rw [if_neg h2, Option.map_eq_some_iff] at hk
    obtain ⟨k', hk', rfl⟩ := hk
    simp only [List.cons_append, List.take_succ_cons] at hb
    rw [indexByte_none] at hb
    have := ih hk' (by rw [indexByte_none]; intro hh; apply hb; simp [hh])
    simp [this]
  | esc e b he _ ih =>
    simp only [List.cons_append, List.take_succ_cons] at hb
    rw [indexByte_none] at hb
    simp at hb
  | uni h1 h2 h3 h4 b _ _ _ _ _ ih =>
    simp only [List.cons_append, List.take_succ_cons] at hb
    rw [indexByte_none] at hb
    simp at hb

theorem parseStringFast_complete {s : Bytes} (hs : JChars s) (r : Bytes) :
    ∃ esc, parseStringFast (0x22 :: (s ++ 0x22 :: r)) = .ok (0x22 :: (s ++ [0x22])) r esc := by
  unfold parseStringFast
  have hlen : ∃ x y, s ++ 34 :: r = x :: y := by cases s <;> simp
  obtain ⟨x, y, hxy⟩ := hlen
  split
  · contradiction
  · rename_i h; rw [hxy] at h; simp at h
  · rename_i q t _ heq
    injection heq with h1 h2
    subst h1; subst h2
    rw [if_neg (by simp)]
    have hmem : (34 : UInt8) ∈ s ++ 34 :: r := by simp
    split
    · rename_i hn
      rw [indexByte_none] at hn
      exact absurd hmem hn
    · rename_i k hk
      split
      · rename_i hc
        have := jchars_fast hs hk hc.1
        subst this
        refine ⟨false, ?_⟩
        have h1 : (34 :: (s ++ 34 :: r)).take (s.length + 2) = 34 :: (s ++ [34]) := by
          rw [List.take_succ_cons, List.take_append, List.take_of_length_le (by omega)]; simp
        have h2 : (34 :: (s ++ 34 :: r)).drop (s.length + 2) = r := by
          rw [List.drop_succ_cons]; simp
        rw [h1, h2]
      · refine ⟨true, ?_⟩
        have := scanString_complete s hs [0x22] r
        simpa using this

theorem parseString_sound {b v r : Bytes} (h : parseString b = .ok v r) : b = v ++ r ∧ JString v := by
  unfold parseString at h
  split at h
  · rename_i v' r' esc hh
    injection h with h1 h2
    subst h1; subst h2
    obtain ⟨s, e1, e2, e3, _⟩ := parseStringFast_sound hh
    exact ⟨e2, by rw [e1]; exact .mk s e3⟩
  · contradiction

theorem parseString_complete {v : Bytes} (hv : JString v) (r : Bytes) : parseString (v ++ r) = .ok v r := by
  obtain ⟨s, hs⟩ := hv
  obtain ⟨esc, h⟩ := parseStringFast_complete hs r
  have e : 34 :: (s ++ [34]) ++ r = 34 :: (s ++ 34 :: r) := by simp
  unfold parseString
  rw [e, h]

end JC
