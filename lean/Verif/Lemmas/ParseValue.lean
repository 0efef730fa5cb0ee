import Verif.Lemmas.ParseScalar
/-! Soundness, completeness, fuel bound of the recursive scanners of `parse.go`. -/
namespace JC
open Spec

theorem closeAt_append (p : Bytes) (c : UInt8) (t : Bytes) : closeAt (p ++ c :: t) (c :: t) = .ok (p ++ [c]) t := by
  unfold closeAt
  have : (p ++ c :: t).length - (c :: t).length + 1 = p.length + 1 := by simp
  simp only [this]
  rw [List.take_append, List.take_of_length_le (by omega)]
  simp

theorem derives_members_ws {w m : Bytes} {ms : List (Bytes × Json)} (hw : Ws w)
    (h : Derives (.members ms) m) : Derives (.members ms) (w ++ m) := by
  cases h with
  | memOne w1 w2 w3 w4 k j b h1 h2 h3 h4 hk hj =>
    have := Derives.memOne (w ++ w1) w2 w3 w4 k j b (hw.append h1) h2 h3 h4 hk hj
    simpa using this
  | memCons w1 w2 w3 w4 k j b ms bs h1 h2 h3 h4 hk hj hm =>
    have := Derives.memCons (w ++ w1) w2 w3 w4 k j b ms bs (hw.append h1) h2 h3 h4 hk hj hm
    simpa using this

theorem derives_elems_ws {w m : Bytes} {ms : List Json} (hw : Ws w)
    (h : Derives (.elems ms) m) : Derives (.elems ms) (w ++ m) := by
  cases h with
  | elemOne w1 w2 j b h1 h2 hj =>
    have := Derives.elemOne (w ++ w1) w2 j b (hw.append h1) h2 hj
    simpa using this
  | elemCons w1 w2 j b xs bs h1 h2 hj hm =>
    have := Derives.elemCons (w ++ w1) w2 j b xs bs (hw.append h1) h2 hj hm
    simpa using this

/-- what the six mutually recursive functions guarantee at one fuel level -/
structure SoundAt (n : Nat) : Prop where
  value : ∀ b v r, parseValueF n b = .ok v r → b = v ++ r ∧ ∃ j, Derives (.value j) v
  object : ∀ b v r, parseObjectF n b = .ok v r → b = v ++ r ∧ ∃ ms, Derives (.value (.obj ms)) v
  array : ∀ b v r, parseArrayF n b = .ok v r → b = v ++ r ∧ ∃ xs, Derives (.value (.arr xs)) v
  objFirst : ∀ p b v r, objLoop n (p ++ b) true b = .ok v r →
    ∃ m, b = m ++ 0x7d :: r ∧ v = p ++ m ++ [0x7d] ∧ (Ws m ∨ ∃ ms, Derives (.members ms) m)
  objNext : ∀ p b v r, objLoop n (p ++ b) false b = .ok v r →
    ∃ m, b = m ++ 0x7d :: r ∧ v = p ++ m ++ [0x7d] ∧
      (Ws m ∨ ∃ w ms m', m = w ++ 0x2c :: m' ∧ Ws w ∧ Derives (.members ms) m')
  objItem : ∀ p b v r, objItem n (p ++ b) b = .ok v r →
    ∃ m ms, b = m ++ 0x7d :: r ∧ v = p ++ m ++ [0x7d] ∧ Derives (.members ms) m
  arrFirst : ∀ p b v r, arrLoop n (p ++ b) true b = .ok v r →
    ∃ m, b = m ++ 0x5d :: r ∧ v = p ++ m ++ [0x5d] ∧ (Ws m ∨ ∃ ms, Derives (.elems ms) m)
  arrNext : ∀ p b v r, arrLoop n (p ++ b) false b = .ok v r →
    ∃ m, b = m ++ 0x5d :: r ∧ v = p ++ m ++ [0x5d] ∧
      (Ws m ∨ ∃ w ms m', m = w ++ 0x2c :: m' ∧ Ws w ∧ Derives (.elems ms) m')
  arrItem : ∀ p b v r, arrItem n (p ++ b) b = .ok v r →
    ∃ m ms, b = m ++ 0x5d :: r ∧ v = p ++ m ++ [0x5d] ∧ Derives (.elems ms) m

theorem sound_zero : SoundAt 0 where
  value := by intro b v r h; simp [parseValueF] at h
  object := by intro b v r h; simp [parseObjectF] at h
  array := by intro b v r h; simp [parseArrayF] at h
  objFirst := by intro p b v r h; simp [objLoop] at h
  objNext := by intro p b v r h; simp [objLoop] at h
  objItem := by intro p b v r h; simp [objItem] at h
  arrFirst := by intro p b v r h; simp [arrLoop] at h
  arrNext := by intro p b v r h; simp [arrLoop] at h
  arrItem := by intro p b v r h; simp [arrItem] at h

theorem sound_succ (n : Nat) (ih : SoundAt n) : SoundAt (n + 1) where
  value := by
    intro b v r h
    unfold parseValueF at h
    split at h
    · contradiction
    · split at h
      · obtain ⟨h1, ms, h2⟩ := ih.object _ _ _ h; exact ⟨h1, _, h2⟩
      · split at h
        · obtain ⟨h1, ms, h2⟩ := ih.array _ _ _ h; exact ⟨h1, _, h2⟩
        · split at h
          · obtain ⟨h1, h2⟩ := parseString_sound h; exact ⟨h1, _, .str _ h2⟩
          · split at h
            · obtain ⟨h1, h2⟩ := parseNull_sound h; exact ⟨h1, _, by rw [h2]; exact .null⟩
            · split at h
              · obtain ⟨h1, h2⟩ := parseTrue_sound h; exact ⟨h1, _, by rw [h2]; exact .tru⟩
              · split at h
                · obtain ⟨h1, h2⟩ := parseFalse_sound h; exact ⟨h1, _, by rw [h2]; exact .fls⟩
                · split at h
                  · obtain ⟨h1, h2⟩ := parseNumber_sound h; exact ⟨h1, _, .num _ h2⟩
                  · contradiction
  object := by
    intro b v r h
    unfold parseObjectF at h
    split at h
    · contradiction
    · split at h
      · contradiction
      · rename_i c t _
        split at h
        · contradiction
        · rename_i hc
          simp only [ne_eq, Decidable.not_not] at hc
          subst hc
          obtain ⟨m, h1, h2, h3⟩ := ih.objFirst [0x7b] t v r h
          refine ⟨by rw [h2, h1]; simp, ?_⟩
          rw [h2]
          rcases h3 with hw | ⟨ms, hm⟩
          · exact ⟨[], .objNil m hw⟩
          · exact ⟨ms, .obj ms m hm⟩
  array := by
    intro b v r h
    unfold parseArrayF at h
    split at h
    · contradiction
    · split at h
      · contradiction
      · rename_i c t _
        split at h
        · contradiction
        · rename_i hc
          simp only [ne_eq, Decidable.not_not] at hc
          subst hc
          obtain ⟨m, h1, h2, h3⟩ := ih.arrFirst [0x5b] t v r h
          refine ⟨by rw [h2, h1]; simp, ?_⟩
          rw [h2]
          rcases h3 with hw | ⟨ms, hm⟩
          · exact ⟨[], .arrNil m hw⟩
          · exact ⟨ms, .arr ms m hm⟩
  objFirst := by
    intro p b v r h
    obtain ⟨w, hw, hb⟩ := exists_skip b
    unfold objLoop at h
    generalize skipSpaces b = b' at h hb
    subst hb
    simp only at h
    split at h
    · contradiction
    · rename_i c t
      split at h
      · rename_i hc
        subst hc
        rw [← List.append_assoc, closeAt_append] at h
        injection h with h1 h2
        subst h1; subst h2
        exact ⟨w, rfl, rfl, .inl hw⟩
      · simp only [if_true] at h
        rw [← List.append_assoc] at h
        obtain ⟨m, ms, h1, h2, h3⟩ := ih.objItem _ _ _ _ h
        refine ⟨w ++ m, by simp [h1], by simp [h2], .inr ⟨ms, derives_members_ws hw h3⟩⟩
  objNext := by
    intro p b v r h
    obtain ⟨w, hw, hb⟩ := exists_skip b
    unfold objLoop at h
    generalize skipSpaces b = b' at h hb
    subst hb
    simp only at h
    split at h
    · contradiction
    · rename_i c t
      split at h
      · rename_i hc
        subst hc
        rw [← List.append_assoc, closeAt_append] at h
        injection h with h1 h2
        subst h1; subst h2
        exact ⟨w, rfl, rfl, .inl hw⟩
      · simp only [Bool.false_eq_true, if_false] at h
        split at h
        · contradiction
        · rename_i hc
          simp only [ne_eq, Decidable.not_not] at hc
          subst hc
          obtain ⟨w2, hw2, ht⟩ := exists_skip t
          generalize skipSpaces t = t' at h ht
          subst ht
          split at h
          · contradiction
          · rename_i c2 t2
            split at h
            · contradiction
            · have e : p ++ (w ++ 44 :: (w2 ++ c2 :: t2)) = (p ++ w ++ 44 :: w2) ++ c2 :: t2 := by simp
              rw [e] at h
              obtain ⟨m, ms, h1, h2, h3⟩ := ih.objItem _ _ _ _ h
              refine ⟨w ++ 44 :: (w2 ++ m), by simp [h1], by simp [h2], .inr ⟨w, ms, w2 ++ m, rfl, hw, derives_members_ws hw2 h3⟩⟩
  objItem := by
    intro p b v r h
    unfold objItem at h
    split at h
    · contradiction
    · rename_i k b1 hk
      obtain ⟨e1, hks⟩ := parseString_sound hk
      subst e1
      obtain ⟨w2, hw2, hb1⟩ := exists_skip b1
      generalize skipSpaces b1 = b1' at h hb1
      subst hb1
      simp only at h
      split at h
      · contradiction
      · rename_i c t
        split at h
        · contradiction
        · rename_i hc
          simp only [ne_eq, Decidable.not_not] at hc
          subst hc
          obtain ⟨w3, hw3, ht⟩ := exists_skip t
          generalize skipSpaces t = t' at h ht
          subst ht
          split at h
          · contradiction
          · rename_i v' b2 hv
            obtain ⟨e2, j, hj⟩ := ih.value _ _ _ hv
            subst e2
            have e : p ++ (k ++ (w2 ++ 58 :: (w3 ++ (v' ++ b2)))) = (p ++ k ++ w2 ++ 58 :: (w3 ++ v')) ++ b2 := by simp
            rw [e] at h
            obtain ⟨m, h1, h2, h3⟩ := ih.objNext _ _ _ _ h
            subst h1
            rcases h3 with hw4 | ⟨w4, ms, m', rfl, hw4, hm⟩
            · refine ⟨_, _, ?_, ?_, .memOne [] w2 w3 m k j v' .nil hw2 hw3 hw4 hks hj⟩
              · simp
              · simp [h2]
            · refine ⟨_, _, ?_, ?_, .memCons [] w2 w3 w4 k j v' ms m' .nil hw2 hw3 hw4 hks hj hm⟩
              · simp
              · simp [h2]
  arrFirst := by
    intro p b v r h
    obtain ⟨w, hw, hb⟩ := exists_skip b
    unfold arrLoop at h
    generalize skipSpaces b = b' at h hb
    subst hb
    simp only at h
    split at h
    · contradiction
    · rename_i c t
      split at h
      · rename_i hc
        subst hc
        rw [← List.append_assoc, closeAt_append] at h
        injection h with h1 h2
        subst h1; subst h2
        exact ⟨w, rfl, rfl, .inl hw⟩
      · simp only [if_true] at h
        rw [← List.append_assoc] at h
        obtain ⟨m, ms, h1, h2, h3⟩ := ih.arrItem _ _ _ _ h
        refine ⟨w ++ m, by simp [h1], by simp [h2], .inr ⟨ms, derives_elems_ws hw h3⟩⟩
  arrNext := by
    intro p b v r h
    obtain ⟨w, hw, hb⟩ := exists_skip b
    unfold arrLoop at h
    generalize skipSpaces b = b' at h hb
    subst hb
    simp only at h
    split at h
    · contradiction
    · rename_i c t
      split at h
      · rename_i hc
        subst hc
        rw [← List.append_assoc, closeAt_append] at h
        injection h with h1 h2
        subst h1; subst h2
        exact ⟨w, rfl, rfl, .inl hw⟩
      · simp only [Bool.false_eq_true, if_false] at h
        split at h
        · contradiction
        · rename_i hc
          simp only [ne_eq, Decidable.not_not] at hc
          subst hc
          obtain ⟨w2, hw2, ht⟩ := exists_skip t
          generalize skipSpaces t = t' at h ht
          subst ht
          split at h
          · contradiction
          · rename_i c2 t2
            split at h
            · contradiction
            · have e : p ++ (w ++ 44 :: (w2 ++ c2 :: t2)) = (p ++ w ++ 44 :: w2) ++ c2 :: t2 := by simp
              rw [e] at h
              obtain ⟨m, ms, h1, h2, h3⟩ := ih.arrItem _ _ _ _ h
              refine ⟨w ++ 44 :: (w2 ++ m), by simp [h1], by simp [h2], .inr ⟨w, ms, w2 ++ m, rfl, hw, derives_elems_ws hw2 h3⟩⟩
  arrItem := by
    intro p b v r h
    unfold arrItem at h
    split at h
    · contradiction
    · rename_i v' b2 hv
      obtain ⟨e2, j, hj⟩ := ih.value _ _ _ hv
      subst e2
      rw [← List.append_assoc] at h
      obtain ⟨m, h1, h2, h3⟩ := ih.arrNext _ _ _ _ h
      subst h1
      rcases h3 with hw4 | ⟨w4, ms, m', rfl, hw4, hm⟩
      · refine ⟨_, _, ?_, ?_, .elemOne [] m j v' .nil hw4 hj⟩
        · simp
        · simp [h2]
      · refine ⟨_, _, ?_, ?_, .elemCons [] w4 j v' ms m' .nil hw4 hj hm⟩
        · simp
        · simp [h2]

theorem soundAt (n : Nat) : SoundAt n := by
  induction n with
  | zero => exact sound_zero
  | succ n ih => exact sound_succ n ih

/-! ### Completeness -/

/-- What may follow a value so that the scanner stops at its end: anything,
except that a number must not be followed by a byte that would extend it. -/
def Follow : Json → Bytes → Prop
  | .num _, r => NumStop r
  | _, _ => True

theorem numStop_ws_cons {w : Bytes} {c : UInt8} {t : Bytes} (hw : Ws w)
    (hc : c = 0x2c ∨ c = 0x5d ∨ c = 0x7d) : NumStop (w ++ c :: t) := by
  intro d hd
  cases w with
  | nil =>
    simp at hd; subst hd
    rcases hc with rfl | rfl | rfl <;> decide
  | cons x w' =>
    simp at hd; subst hd
    have := hw x (by simp)
    cases this <;> decide

theorem numStop_ws {w : Bytes} (hw : Ws w) : NumStop w := by
  intro d hd
  cases w with
  | nil => simp at hd
  | cons x w' =>
    simp at hd; subst hd
    have := hw x (by simp)
    cases this <;> decide

theorem follow_of_numStop {j : Json} {r : Bytes} (h : NumStop r) : Follow j r := by
  cases j <;> simp [Follow, h]

/-- The first byte of a value. -/
theorem derives_value_head {j : Json} {b : Bytes} (h : Derives (.value j) b) :
    ∃ c t, b = c :: t ∧ isSpace c = false ∧ c ≠ 0x2c ∧ c ≠ 0x5d ∧ c ≠ 0x7d ∧ c ≠ 0x3a := by
  cases h with
  | null => exact ⟨_, _, rfl, by decide⟩
  | tru => exact ⟨_, _, rfl, by decide⟩
  | fls => exact ⟨_, _, rfl, by decide⟩
  | num s hs =>
    obtain ⟨sgn, i, f, e, hs, hi, hf, he⟩ := hs
    rcases hs with rfl | rfl
    · cases hi with
      | zero => exact ⟨_, _, rfl, by decide⟩
      | pos d ds h1 h2 h3 =>
        refine ⟨d, ds ++ f ++ e, by simp, ?_⟩
        have : ∀ d : Fin 256, 0x31 ≤ d.val → d.val ≤ 0x39 → isSpace (UInt8.ofNat d.val) = false ∧ UInt8.ofNat d.val ≠ 0x2c ∧ UInt8.ofNat d.val ≠ 0x5d ∧ UInt8.ofNat d.val ≠ 0x7d ∧ UInt8.ofNat d.val ≠ 0x3a := by
          decide +kernel
        have := this ⟨d.toNat, d.toNat_lt⟩ (by rw [UInt8.le_iff_toNat_le] at h1; exact h1) (by rw [UInt8.le_iff_toNat_le] at h2; exact h2)
        simpa using this
    · exact ⟨0x2d, i ++ f ++ e, by simp, by decide⟩
  | str s hs => obtain ⟨s, hs⟩ := hs; exact ⟨_, _, rfl, by decide⟩
  | arrNil w hw => exact ⟨_, _, rfl, by decide⟩
  | arr xs b h => exact ⟨_, _, rfl, by decide⟩
  | objNil w hw => exact ⟨_, _, rfl, by decide⟩
  | obj xs b h => exact ⟨_, _, rfl, by decide⟩

theorem derives_elems_head {xs : List Json} {m : Bytes} (h : Derives (.elems xs) m) (r : Bytes) :
    ∃ c t, skipSpaces (m ++ r) = c :: t ∧ c ≠ 0x2c ∧ c ≠ 0x5d := by
  have key : ∀ (w1 b : Bytes) (j : Json) (rest : Bytes), Ws w1 → Derives (.value j) b →
      ∃ c t, skipSpaces (w1 ++ (b ++ rest)) = c :: t ∧ c ≠ 0x2c ∧ c ≠ 0x5d := by
    intro w1 b j rest hw hj
    obtain ⟨c, t, rfl, hc, h1, h2, h3⟩ := derives_value_head hj
    refine ⟨c, t ++ rest, ?_, h1, h2⟩
    rw [skipSpaces_ws_append hw, List.cons_append, skipSpaces_cons_of_not hc]
  cases h with
  | elemOne w1 w2 j b h1 h2 hj =>
    have := key w1 b j (w2 ++ r) h1 hj
    simpa using this
  | elemCons w1 w2 j b xs bs h1 h2 hj hm =>
    have := key w1 b j (w2 ++ 0x2c :: (bs ++ r)) h1 hj
    simpa using this

theorem JString.head {k : Bytes} (h : JString k) : ∃ t, k = 0x22 :: t := by
  obtain ⟨s, hs⟩ := h; exact ⟨_, rfl⟩

theorem derives_members_head {xs : List (Bytes × Json)} {m : Bytes} (h : Derives (.members xs) m) (r : Bytes) :
    ∃ t, skipSpaces (m ++ r) = 0x22 :: t := by
  have key : ∀ (w1 k : Bytes) (rest : Bytes), Ws w1 → JString k →
      ∃ t, skipSpaces (w1 ++ (k ++ rest)) = 0x22 :: t := by
    intro w1 k rest hw hk
    obtain ⟨t, rfl⟩ := JString.head hk
    refine ⟨t ++ rest, ?_⟩
    rw [skipSpaces_ws_append hw, List.cons_append, skipSpaces_cons_of_not (by decide)]
  cases h with
  | memOne w1 w2 w3 w4 k j b h1 h2 h3 h4 hk hj =>
    have := key w1 k (w2 ++ 0x3a :: (w3 ++ b ++ w4 ++ r)) h1 hk
    simpa using this
  | memCons w1 w2 w3 w4 k j b ms bs h1 h2 h3 h4 hk hj hm =>
    have := key w1 k (w2 ++ 0x3a :: (w3 ++ b ++ w4 ++ 0x2c :: (bs ++ r))) h1 hk
    simpa using this

/-- what completeness says for each nonterminal -/
def CompleteSpec : Sym → Bytes → Prop
  | .value j, b => ∀ r n, Follow j r → 4 * b.length ≤ n → parseValueF n (b ++ r) = .ok b r
  | .elems _, m => ∀ p r n, 4 * m.length + 2 ≤ n →
      arrItem n (p ++ (m ++ 0x5d :: r)) (skipSpaces (m ++ 0x5d :: r)) = .ok (p ++ m ++ [0x5d]) r
  | .members _, m => ∀ p r n, 4 * m.length + 2 ≤ n →
      objItem n (p ++ (m ++ 0x7d :: r)) (skipSpaces (m ++ 0x7d :: r)) = .ok (p ++ m ++ [0x7d]) r

theorem num_dispatch {s : Bytes} (hs : JNumber s) (r : Bytes) (n : Nat) :
    parseValueF (n + 1) (s ++ r) = parseNumber (s ++ r) := by
  obtain ⟨c, t, h, hc⟩ : ∃ c t, s = c :: t ∧ (c = 0x2d ∨ isDigit c = true) := by
    obtain ⟨sgn, i, f, e, hs, hi, hf, he⟩ := hs
    rcases hs with rfl | rfl
    · cases hi with
      | zero => exact ⟨_, _, rfl, by decide⟩
      | pos d ds h1 h2 h3 =>
        refine ⟨d, ds ++ f ++ e, by simp, .inr ?_⟩
        rw [isDigit_iff]
        refine ⟨?_, h2⟩
        rw [UInt8.le_iff_toNat_le] at h1 ⊢
        have e1 : (0x30 : UInt8).toNat = 48 := rfl
        have e3 : (0x31 : UInt8).toNat = 49 := rfl
        omega
    · exact ⟨0x2d, i ++ f ++ e, by simp, .inl rfl⟩
  subst h
  simp only [List.cons_append, parseValueF]
  have hd : ∀ x : UInt8, isDigit x = false → x ≠ 0x2d → c ≠ x := by
    rintro x hx1 hx2 rfl
    rcases hc with hc | hc
    · exact hx2 hc
    · rw [hx1] at hc; contradiction
  rw [if_neg (hd _ (by decide) (by decide)), if_neg (hd _ (by decide) (by decide)),
    if_neg (hd _ (by decide) (by decide)), if_neg (hd _ (by decide) (by decide)),
    if_neg (hd _ (by decide) (by decide)), if_neg (hd _ (by decide) (by decide)), if_pos hc]

theorem arr_close (n : Nat) (p w r : Bytes) (first : Bool) (hw : Ws w) :
    arrLoop (n + 1) (p ++ (w ++ 0x5d :: r)) first (w ++ 0x5d :: r) = .ok (p ++ w ++ [0x5d]) r := by
  unfold arrLoop
  rw [skipSpaces_ws_append hw, skipSpaces_cons_of_not (by decide)]
  simp only [if_true]
  rw [← List.append_assoc, closeAt_append]

theorem obj_close (n : Nat) (p w r : Bytes) (first : Bool) (hw : Ws w) :
    objLoop (n + 1) (p ++ (w ++ 0x7d :: r)) first (w ++ 0x7d :: r) = .ok (p ++ w ++ [0x7d]) r := by
  unfold objLoop
  rw [skipSpaces_ws_append hw, skipSpaces_cons_of_not (by decide)]
  simp only [if_true]
  rw [← List.append_assoc, closeAt_append]

theorem complete {s : Sym} {b : Bytes} (h : Derives s b) : CompleteSpec s b := by
  induction h with
  | null =>
    intro r n _ hn
    obtain ⟨n, rfl⟩ : ∃ m, n = m + 1 := ⟨n - 1, by simp at hn; omega⟩
    simp [parseValueF]; exact parseNull_complete r
  | tru =>
    intro r n _ hn
    obtain ⟨n, rfl⟩ : ∃ m, n = m + 1 := ⟨n - 1, by simp at hn; omega⟩
    simp [parseValueF]; exact parseTrue_complete r
  | fls =>
    intro r n _ hn
    obtain ⟨n, rfl⟩ : ∃ m, n = m + 1 := ⟨n - 1, by simp at hn; omega⟩
    simp [parseValueF]; exact parseFalse_complete r
  | num s hs =>
    intro r n hf hn
    have hpos : 0 < s.length := by
      obtain ⟨c, t, rfl, _⟩ := derives_value_head (.num s hs); simp
    obtain ⟨n, rfl⟩ : ∃ m, n = m + 1 := ⟨n - 1, by omega⟩
    rw [num_dispatch hs]
    exact parseNumber_complete hs hf
  | str s hs =>
    intro r n _ hn
    obtain ⟨t, ht⟩ := JString.head hs
    have hpos : 0 < s.length := by rw [ht]; simp
    obtain ⟨n, rfl⟩ : ∃ m, n = m + 1 := ⟨n - 1, by omega⟩
    have := parseString_complete hs r
    rw [ht] at this ⊢
    simp only [List.cons_append, parseValueF] at this ⊢
    simp [this]
  | arrNil w hw =>
    intro r n _ hn
    obtain ⟨n, rfl⟩ : ∃ m, n = m + 3 := ⟨n - 3, by simp at hn; omega⟩
    have := arr_close n [0x5b] w r true hw
    simp only [List.cons_append, List.append_assoc, List.nil_append, parseValueF, parseArrayF] at this ⊢
    rw [if_neg (by decide), if_pos trivial]
    rw [if_neg (by simp; omega), if_neg (by simp)]
    exact this
  | arr xs b hb ih =>
    intro r n _ hn
    obtain ⟨n, rfl⟩ : ∃ m, n = m + 3 := ⟨n - 3, by simp at hn; omega⟩
    have h1 := ih [0x5b] r n (by simp at hn; omega)
    obtain ⟨c, t, hsk, _, hc⟩ := derives_elems_head hb (0x5d :: r)
    simp only [List.cons_append, List.append_assoc, List.nil_append, parseValueF, parseArrayF, arrLoop] at h1 ⊢
    rw [if_neg (by decide), if_pos trivial]
    rw [if_neg (by simp; omega), if_neg (by simp)]
    rw [hsk] at h1 ⊢
    simp only [if_neg hc, if_true]
    exact h1
  | objNil w hw =>
    intro r n _ hn
    obtain ⟨n, rfl⟩ : ∃ m, n = m + 3 := ⟨n - 3, by simp at hn; omega⟩
    have := obj_close n [0x7b] w r true hw
    simp only [List.cons_append, List.append_assoc, List.nil_append, parseValueF, parseObjectF] at this ⊢
    rw [if_pos trivial]
    rw [if_neg (by simp; omega), if_neg (by simp)]
    exact this
  | obj xs b hb ih =>
    intro r n _ hn
    obtain ⟨n, rfl⟩ : ∃ m, n = m + 3 := ⟨n - 3, by simp at hn; omega⟩
    have h1 := ih [0x7b] r n (by simp at hn; omega)
    obtain ⟨t, hsk⟩ := derives_members_head hb (0x7d :: r)
    simp only [List.cons_append, List.append_assoc, List.nil_append, parseValueF, parseObjectF, objLoop] at h1 ⊢
    rw [if_pos trivial]
    rw [if_neg (by simp; omega), if_neg (by simp)]
    rw [hsk] at h1 ⊢
    simp only [if_true]
    rw [if_neg (by decide)]
    exact h1
  | elemOne w1 w2 j b h1 h2 hj ih =>
    intro p r n hn
    obtain ⟨n, rfl⟩ : ∃ m, n = m + 2 := ⟨n - 2, by omega⟩
    obtain ⟨c, t, hb, hc, _⟩ := derives_value_head hj
    have hv := ih (w2 ++ 0x5d :: r) (n + 1) (follow_of_numStop (numStop_ws_cons h2 (by simp))) (by simp at hn; omega)
    have hs : skipSpaces (w1 ++ b ++ w2 ++ 93 :: r) = b ++ (w2 ++ 93 :: r) := by
      rw [List.append_assoc, List.append_assoc, skipSpaces_ws_append h1, hb, List.cons_append, skipSpaces_cons_of_not hc]
    rw [hs]
    unfold arrItem
    rw [hv]
    have := arr_close n (p ++ w1 ++ b) w2 r false h2
    simpa using this
  | elemCons w1 w2 j b xs bs h1 h2 hj hxs ih1 ih2 =>
    intro p r n hn
    obtain ⟨n, rfl⟩ : ∃ m, n = m + 2 := ⟨n - 2, by omega⟩
    obtain ⟨c, t, hb, hc, _⟩ := derives_value_head hj
    have hv := ih1 (w2 ++ 0x2c :: (bs ++ 0x5d :: r)) (n + 1) (follow_of_numStop (numStop_ws_cons h2 (by simp))) (by simp at hn; omega)
    have hs : skipSpaces (w1 ++ b ++ w2 ++ 44 :: bs ++ 93 :: r) = b ++ (w2 ++ 44 :: (bs ++ 93 :: r)) := by
      simp only [List.append_assoc]
      rw [skipSpaces_ws_append h1, hb, List.cons_append, skipSpaces_cons_of_not hc]
      simp
    rw [hs]
    unfold arrItem
    rw [hv]
    simp only
    unfold arrLoop
    rw [skipSpaces_ws_append h2, skipSpaces_cons_of_not (by decide)]
    simp only
    rw [if_neg (by decide), if_neg (by simp), if_neg (by simp)]
    have h3 := ih2 (p ++ w1 ++ b ++ w2 ++ [0x2c]) r n (by simp at hn; omega)
    obtain ⟨c', t', hsk, _, hc'⟩ := derives_elems_head hxs (0x5d :: r)
    rw [hsk] at h3 ⊢
    simp only
    rw [if_neg hc']
    simpa using h3
  | memOne w1 w2 w3 w4 k j b h1 h2 h3 h4 hk hj ih =>
    intro p r n hn
    obtain ⟨n, rfl⟩ : ∃ m, n = m + 2 := ⟨n - 2, by omega⟩
    obtain ⟨c, t, hb, hc, _⟩ := derives_value_head hj
    obtain ⟨t', hk'⟩ := JString.head hk
    have hv := ih (w4 ++ 0x7d :: r) (n + 1) (follow_of_numStop (numStop_ws_cons h4 (by simp))) (by simp at hn; omega)
    have hs : skipSpaces (w1 ++ k ++ w2 ++ 58 :: (w3 ++ b ++ w4) ++ 125 :: r) = k ++ (w2 ++ 58 :: (w3 ++ (b ++ (w4 ++ 125 :: r)))) := by
      simp only [List.append_assoc]
      rw [skipSpaces_ws_append h1, hk', List.cons_append, skipSpaces_cons_of_not (by decide)]
      simp
    rw [hs]
    unfold objItem
    rw [parseString_complete hk]
    simp only
    rw [skipSpaces_ws_append h2, skipSpaces_cons_of_not (by decide)]
    simp only
    rw [if_neg (by simp), skipSpaces_ws_append h3]
    have e : skipSpaces (b ++ (w4 ++ 125 :: r)) = b ++ (w4 ++ 125 :: r) := by
      rw [hb, List.cons_append, skipSpaces_cons_of_not hc]
    rw [e, hv]
    have := obj_close n (p ++ w1 ++ k ++ w2 ++ 0x3a :: (w3 ++ b)) w4 r false h4
    simpa using this
  | memCons w1 w2 w3 w4 k j b ms bs h1 h2 h3 h4 hk hj hms ih1 ih2 =>
    intro p r n hn
    obtain ⟨n, rfl⟩ : ∃ m, n = m + 2 := ⟨n - 2, by omega⟩
    obtain ⟨c, t, hb, hc, _⟩ := derives_value_head hj
    obtain ⟨t', hk'⟩ := JString.head hk
    have hv := ih1 (w4 ++ 0x2c :: (bs ++ 0x7d :: r)) (n + 1) (follow_of_numStop (numStop_ws_cons h4 (by simp))) (by simp at hn; omega)
    have hs : skipSpaces (w1 ++ k ++ w2 ++ 58 :: (w3 ++ b ++ w4 ++ 44 :: bs) ++ 125 :: r) = k ++ (w2 ++ 58 :: (w3 ++ (b ++ (w4 ++ 44 :: (bs ++ 125 :: r))))) := by
      simp only [List.append_assoc]
      rw [skipSpaces_ws_append h1, hk', List.cons_append, skipSpaces_cons_of_not (by decide)]
      simp
    rw [hs]
    unfold objItem
    rw [parseString_complete hk]
    simp only
    rw [skipSpaces_ws_append h2, skipSpaces_cons_of_not (by decide)]
    simp only
    rw [if_neg (by simp), skipSpaces_ws_append h3]
    have e : skipSpaces (b ++ (w4 ++ 44 :: (bs ++ 125 :: r))) = b ++ (w4 ++ 44 :: (bs ++ 125 :: r)) := by
      rw [hb, List.cons_append, skipSpaces_cons_of_not hc]
    rw [e, hv]
    simp only
    unfold objLoop
    rw [skipSpaces_ws_append h4, skipSpaces_cons_of_not (by decide)]
    simp only
    rw [if_neg (by decide), if_neg (by simp), if_neg (by simp)]
    have h5 := ih2 (p ++ w1 ++ k ++ w2 ++ 0x3a :: (w3 ++ b ++ w4 ++ [0x2c])) r n (by simp at hn; omega)
    obtain ⟨t'', hsk⟩ := derives_members_head hms (0x7d :: r)
    rw [hsk] at h5 ⊢
    simp only
    rw [if_neg (by decide)]
    simpa using h5

/-! ### Entry points -/

theorem parseValue_sound {b v r : Bytes} (h : parseValue b = .ok v r) :
    b = v ++ r ∧ ∃ j, Derives (.value j) v := (soundAt _).value _ _ _ h

theorem parseValue_complete {j : Json} {v r : Bytes} (h : Derives (.value j) v) (hf : Follow j r) :
    parseValue (v ++ r) = .ok v r := by
  have := complete h r (fuelFor (v ++ r)) hf (by simp [fuelFor]; omega)
  exact this

end JC
