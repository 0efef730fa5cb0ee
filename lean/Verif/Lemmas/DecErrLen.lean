import Verif.Lemmas.WorkLoops
/-! What a decoding function leaves of its input when it fails is no longer than four times the input; where it is no suffix, it
is what is left of the unquoted text of a string. -/
namespace JC
open Spec Props

def ErrLen (dec : Dec) : Prop := ∀ b p x r e, dec b p = .err x r e → r.length ≤ 4 * b.length

theorem suf4 {r b : Bytes} (h : r <:+ b) : r.length ≤ 4 * b.length := by have := h.length_le; omega

theorem inputError_suf (b : Bytes) : (inputError b).1 <:+ b := by
  unfold inputError
  split
  · exact List.nil_suffix
  · split
    · exact parseValue_tail ‹_›
    · rename_i h; exact (skip_suf _).trans (parseValue_suf h)

theorem input_suf {b : Bytes} {p x : DV} {r : Bytes} {e : Err} (h : inputErr b p = .err x r e) : r <:+ b := by
  injection h with _ h _
  exact h ▸ inputError_suf b

theorem unquote_fail_suf {b r : Bytes} {e : Err} (h : parseStringUnquote b [] = .fail r e) : r <:+ b := by
  unfold parseStringUnquote at h
  split at h
  · rename_i rest e' hf
    injection h with h _
    subst h
    have : parseString b = .fail rest e' := by unfold parseString; rw [hf]
    exact parseString_tail this
  · rename_i s rest esc hf
    obtain ⟨s', _, hb, _⟩ := parseStringFast_sound hf
    have hr : rest <:+ b := ⟨_, hb.symm⟩
    repeat' split at h
    all_goals first
      | contradiction
      | (simp only [] at h
         repeat' split at h
         all_goals first | contradiction | (injection h with h _; exact h ▸ hr))

theorem intFinish_suf {b : Bytes} {n : Nat} {d : DigLoop} {r : Bytes} {e : Err} (h : intFinish b n d = .fail r e) : r <:+ b := by
  unfold intFinish at h
  split at h
  · injection h with h _; exact h ▸ List.suffix_refl _
  · injection h with h _; exact h ▸ inputError_suf b
  · unfold intTail at h
    split at h
    · rename_i c r0 hd
      split at h
      · split at h
        · injection h with h _; exact h ▸ parseNumber_suf ‹_›
        · injection h with h _
          subst h
          exact (List.suffix_cons c r0).trans (hd ▸ drop_suf _ _)
      · contradiction
    · contradiction

theorem parseInt_fail_suf {b r : Bytes} {e : Err} (h : parseInt b = .fail r e) : r <:+ b := by
  unfold parseInt at h
  repeat' split at h
  all_goals first
    | exact intFinish_suf h
    | (injection h with h _; exact h ▸ List.suffix_refl _)

theorem parseUint_fail_suf {b r : Bytes} {e : Err} (h : parseUint b = .fail r e) : r <:+ b := by
  unfold parseUint at h
  repeat' split at h
  all_goals first
    | exact intFinish_suf h
    | (injection h with h _; exact h ▸ List.suffix_refl _)

theorem intFinish_ok_suf {b : Bytes} {n : Nat} {d : DigLoop} {v : Int} {r : Bytes} (h : intFinish b n d = .ok v r) : r <:+ b := by
  unfold intFinish intTail at h
  repeat' split at h
  all_goals first
    | contradiction
    | (injection h with _ h; exact h ▸ drop_suf _ _)

theorem parseInt_ok_suf {b r : Bytes} {v : Int} (h : parseInt b = .ok v r) : r <:+ b := by
  unfold parseInt at h
  repeat' split at h
  all_goals first | contradiction | exact intFinish_ok_suf h

theorem parseUint_ok_suf {b r : Bytes} {v : Int} (h : parseUint b = .ok v r) : r <:+ b := by
  unfold parseUint at h
  repeat' split at h
  all_goals first | contradiction | exact intFinish_ok_suf h

theorem decodeIntKind_suf (k : IntKind) (b : Bytes) (p : Int) : (decodeIntKind k b p).rest <:+ b := by
  cases k <;> simp only [decodeIntKind, decodeIntSized, decodeInt64, decodeUintSized, decodeUint64]
  all_goals
    split
    · exact drop_suf _ _
    · split
      · first | exact parseInt_fail_suf ‹_› | exact parseUint_fail_suf ‹_›
      · first
          | exact parseInt_ok_suf ‹_›
          | exact parseUint_ok_suf ‹_›
          | (split <;> first | exact parseInt_ok_suf ‹_› | exact parseUint_ok_suf ‹_›)

theorem decodeInt_err_suf {k : IntKind} {b : Bytes} {p x : DV} {r : Bytes} {e : Err} (h : decodeInt k b p = .err x r e) : r <:+ b := by
  unfold decodeInt at h
  split at h
  · contradiction
  · simp only [] at h
    split at h
    · contradiction
    · injection h with _ h _; exact h ▸ decodeIntKind_suf k b _

theorem string_err_suf {b : Bytes} {p x : DV} {r : Bytes} {e : Err} (h : decodeString b p = .err x r e) : r <:+ b := by
  unfold decodeString at h
  split at h
  · contradiction
  · split at h
    · contradiction
    · split at h
      · exact input_suf h
      · injection h with _ h _; exact h ▸ unquote_fail_suf ‹_›
    · contradiction

theorem textU_err_suf {f : Bytes → Option Err} {b : Bytes} {p x : DV} {r : Bytes} {e : Err} (h : decodeTextUnmarshaler f b p = .err x r e) : r <:+ b := by
  unfold decodeTextUnmarshaler at h
  split at h
  · injection h with _ h _; exact h ▸ parseValue_tail ‹_›
  · rename_i v b' hp
    have hs := parseValue_suf hp
    split at h
    · exact (input_suf h).trans List.nil_suffix
    · repeat' split at h
      all_goals first | contradiction | (injection h with _ h _; exact h ▸ hs)

theorem decodeKey_err_suf {k : KTy} {b : Bytes} {x : DV} {r : Bytes} {e : Err} (h : decodeKey k b = .err x r e) : r <:+ b := by
  cases k with
  | str => exact string_err_suf h
  | text tk =>
    simp only [decodeKey] at h
    split at h
    · contradiction
    · rename_i ht; injection h with _ h _; exact h ▸ textU_err_suf ht
    · contradiction
  | int k =>
    simp only [decodeKey, decodeFromString] at h
    split at h
    · exact decodeInt_err_suf h
    · split at h
      · contradiction
      · exact (input_suf h).trans List.nil_suffix
      · rename_i hu
        have hs := unquote_suf hu
        repeat' split at h
        all_goals first | contradiction | (injection h with _ h _; exact h ▸ hs)

theorem fieldKey_err_suf {b : Bytes} {x : DV} {r : Bytes} {e : Err} (h : fieldKey b = .err x r e) : r <:+ b := by
  unfold fieldKey at h
  split at h
  · contradiction
  · injection h with _ h _; exact h ▸ unquote_fail_suf ‹_›
  · contradiction

theorem keyError_suf {b r : Bytes} {e : Err} (h : r <:+ b) : (objectKeyError r e).1 <:+ b := by
  unfold objectKeyError
  split
  · exact List.nil_suffix
  · split <;> exact h

theorem memberKey_err_suf {key : Bytes → DRes} (hk : ∀ b x r, key b = .ok x r → r <:+ b) (he : ∀ b x r e, key b = .err x r e → r <:+ b)
    {first : Bool} {b r : Bytes} {e : Err} (h : memberKey key first b = .inr (.inl (r, e))) : r <:+ b := by
  have one : ∀ b, memberKey key true b = .inr (.inl (r, e)) → r <:+ b := by
    intro b h
    unfold memberKey at h
    simp only [if_true] at h
    split at h
    · injection h with h; injection h with h; injection h with h _; exact h ▸ List.suffix_refl _
    · split at h
      · contradiction
      · rename_i hq
        injection h with h; injection h with h
        have := keyError_suf (e := ‹Err›) (he _ _ _ _ hq)
        rw [h] at this
        exact this
      · rename_i r0 hq
        have hs := (skip_suf r0).trans (hk _ _ _ hq)
        split at h
        · injection h with h; injection h with h; injection h with h _; exact h ▸ hs
        · split at h
          · injection h with h; injection h with h; injection h with h _; exact h ▸ hs
          · injection h with h; contradiction
  cases first with
  | true => exact one b h
  | false =>
    cases b with
    | nil => simp [memberKey] at h; exact h.1 ▸ List.suffix_refl _
    | cons c t =>
      by_cases hc : c = 0x2c
      · subst hc
        rw [memberKey_comma] at h
        exact (one _ h).trans ((skip_suf t).trans (List.suffix_cons _ _))
      · simp [memberKey, hc] at h; exact h.1 ▸ List.suffix_refl _

/-! ### Loops -/

theorem sliceLoop_err {dec : Dec} {z : DV} (hd : Suff dec) {input : Bytes} : ∀ n (done mem : List DV) b x r e,
    sliceLoop dec z input n done mem b = .err x r e → b.length ≤ input.length → r.length ≤ input.length := by
  intro n
  induction n with
  | zero => intro done mem b x r e h; simp [sliceLoop] at h
  | succ n ih =>
    intro done mem b x r e h hb
    have elem : ∀ b, b.length ≤ input.length → sliceElem dec z input n done mem b = .err x r e → r.length ≤ input.length := by
      intro b hb h
      unfold sliceElem at h
      split at h
      · contradiction
      · split at h
        · injection h with _ h _; exact h ▸ (parseValue_tail ‹_›).length_le
        · injection h with _ h _; exact h ▸ (parseValue_suf ‹_›).length_le
      · rename_i hq
        exact ih _ _ _ _ _ _ h (Nat.le_trans (hd _ _ _ _ hq).length_le hb)
    have hs := (skip_suf b).length_le
    rw [sliceLoop_succ] at h
    split at h
    · contradiction
    · split at h
      · exact elem _ (by omega) h
      · split at h
        · injection h with _ h _; rw [← h]; omega
        · rename_i c t hq
          have := (skip_cons_suf hq).length_le
          have := (skip_suf t).length_le
          split at h
          · injection h with _ h _; rw [← h]; omega
          · exact elem _ (by omega) h

theorem slice_err {dec : Dec} {z : DV} (hd : Suff dec) : ErrLen (decodeSlice dec z) := by
  intro b p x r e h
  rw [decodeSlice_eq] at h
  split at h
  · contradiction
  · split at h
    · exact suf4 (input_suf h)
    · split at h
      · exact suf4 (input_suf h)
      · have := sliceLoop_err hd _ _ _ _ _ _ _ h (by simp)
        omega

theorem arrayRest_err_len {p : DV} : ∀ n b x r e, arrayRest p n b = .err x r e → r.length ≤ b.length := by
  intro n
  induction n with
  | zero => intro b x r e h; simp [arrayRest] at h
  | succ n ih =>
    intro b x r e h
    have hs := (skip_suf b).length_le
    simp only [arrayRest] at h
    split at h
    · injection h with _ h _; rw [← h]; omega
    · rename_i c t hq
      have h3 := (skip_cons_suf hq).length_le
      have h4 := (skip_suf t).length_le
      split at h
      · contradiction
      · have hb : (if c = ch! ',' then skipSpaces t else skipSpaces b).length ≤ b.length := by split <;> omega
        split at h
        · rename_i hp
          injection h with _ h _
          have := (parseValue_tail hp).length_le
          rw [← h]; omega
        · rename_i hp
          have h1 := ih _ _ _ _ h
          have h2 := (parseValue_suf hp).length_le
          omega

theorem arrayElems_err {dec : Dec} {z : DV} (hd : Suff dec) (he : ErrLen dec) : ∀ n first (done mem : List DV) b x r e,
    arrayElems dec z first done n mem b = .err x r e → r.length ≤ 4 * b.length := by
  intro n
  induction n with
  | zero =>
    intro first done mem b x r e h
    rw [arrayElems] at h
    have := arrayRest_err_len _ _ _ _ _ h
    omega
  | succ n ih =>
    intro first done mem b x r e h
    have elem : ∀ b, arrayElem dec z done n mem b = .err x r e → r.length ≤ 4 * b.length := by
      intro b h
      unfold arrayElem at h
      split at h
      · contradiction
      · rename_i hq; injection h with _ h _; exact h ▸ he _ _ _ _ _ hq
      · rename_i hq
        have := ih _ _ _ _ _ _ _ h
        have := (hd _ _ _ _ hq).length_le
        omega
    have hs := (skip_suf b).length_le
    cases first with
    | true => rw [arrayElems_first] at h; have := elem _ h; omega
    | false =>
      rw [arrayElems_next] at h
      split at h
      · injection h with _ h _; rw [← h]; omega
      · rename_i c t hq
        have h3 := (skip_cons_suf hq).length_le
        have h4 := (skip_suf t).length_le
        split at h
        · have := elem _ h; omega
        · split at h
          · contradiction
          · injection h with _ h _; rw [← h]; omega

theorem array_err {dec : Dec} {z : DV} (hd : Suff dec) (he : ErrLen dec) (n : Nat) : ErrLen (decodeArray n dec z) := by
  intro b p x r e h
  rw [decodeArray_eq] at h
  split at h
  · contradiction
  · split at h
    · exact suf4 (input_suf h)
    · split at h
      · exact suf4 (input_suf h)
      · have := arrayElems_err hd he _ _ _ _ _ _ _ _ h
        rw [List.length_cons]; omega

theorem mapLoopD_err {k : KTy} {dec : Dec} {z p : DV} {fresh : Bool} {input : Bytes} (hd : Suff dec) :
    ∀ n first (m : List (MK × DV)) b x r e, mapLoopD k dec z p fresh input n first m b = .err x r e → b.length ≤ input.length → r.length ≤ input.length := by
  intro n
  induction n with
  | zero => intro first m b x r e h; simp [mapLoopD] at h
  | succ n ih =>
    intro first m b x r e h hb
    have hs := (skip_suf b).length_le
    rw [mapLoopD] at h
    simp only [] at h
    split at h
    · contradiction
    · split at h
      · contradiction
      · rename_i hq
        have := (memberKey_err_suf (fun b x r h => decodeKey_suf h) (fun b x r e h => decodeKey_err_suf h) hq).length_le
        injection h with _ h _; rw [← h]; omega
      · rename_i hq
        have h1 := (memberKey_suf (fun b x r h => decodeKey_suf h) hq).length_le
        split at h
        · contradiction
        · split at h
          · injection h with _ h _; exact h ▸ (parseValue_tail ‹_›).length_le
          · injection h with _ h _; exact h ▸ (parseValue_suf ‹_›).length_le
        · rename_i e2
          have := (hd _ _ _ _ e2).length_le
          exact ih _ _ _ _ _ _ h (by omega)

theorem map_err {k : KTy} {dec : Dec} {z : DV} (hd : Suff dec) : ErrLen (decodeMap k dec z) := by
  intro b p x r e h
  unfold decodeMap at h
  split at h
  · contradiction
  · split at h
    · exact suf4 (input_suf h)
    · split at h
      · exact suf4 (input_suf h)
      · split at h
        all_goals
          have := mapLoopD_err hd _ _ _ _ _ _ _ h (by simp)
          omega

theorem structLoopD_err {decs : List Dec} (hd : ∀ d ∈ decs, Suff d) {c : DCfg} {names : List Bytes} {input : Bytes} :
    ∀ n first (fs : List DV) b x r e, structLoopD c names decs input n first fs b = .err x r e → b.length ≤ input.length → r.length ≤ input.length := by
  intro n
  induction n with
  | zero => intro first m b x r e h; simp [structLoopD] at h
  | succ n ih =>
    intro first fs b x r e h hb
    have hs := (skip_suf b).length_le
    rw [structLoopD_succ] at h
    split at h
    · contradiction
    · split at h
      · contradiction
      · rename_i hq
        have := (memberKey_err_suf (fun b x r h => fieldKey_suf h) (fun b x r e h => fieldKey_err_suf h) hq).length_le
        injection h with _ h _; rw [← h]; omega
      · rename_i hq
        have h1 := (memberKey_suf (fun b x r h => fieldKey_suf h) hq).length_le
        unfold structField at h
        split at h
        · split at h
          · injection h with _ h _; rw [← h]; omega
          · split at h
            · rename_i e2
              have := (parseValue_tail e2).length_le
              injection h with _ h _; rw [← h]; omega
            · rename_i e2
              have := (parseValue_suf e2).length_le
              exact ih _ _ _ _ _ _ h (by omega)
        · split at h
          · contradiction
          · rename_i e2
            have hm := List.mem_of_getElem? e2
            split at h
            · contradiction
            · split at h
              · injection h with _ h _; exact h ▸ (parseValue_tail ‹_›).length_le
              · injection h with _ h _; exact h ▸ (parseValue_suf ‹_›).length_le
            · rename_i e3
              have := (hd _ hm _ _ _ _ e3).length_le
              exact ih _ _ _ _ _ _ h (by omega)

theorem struct_err {decs : List Dec} (hd : ∀ d ∈ decs, Suff d) {c : DCfg} {names : List Bytes} : ErrLen (decodeStruct c names decs) := by
  intro b p x r e h
  rw [decodeStruct_eq] at h
  split at h
  · contradiction
  · split at h
    · exact suf4 (input_suf h)
    · split at h
      · exact suf4 (input_suf h)
      · have := structLoopD_err hd _ _ _ _ _ _ _ h (by simp)
        omega

/-! ### Functions of types -/

theorem map_errL {f : DV → DV} {d : DRes} {x : DV} {r : Bytes} {e : Err} (h : d.map f = .err x r e) : ∃ y, d = .err y r e := by
  cases d with
  | err y r' e' => injection h with _ h1 h2; subst h1 h2; exact ⟨y, rfl⟩
  | ok _ _ => contradiction
  | crash _ => contradiction

theorem pointer_errL {dec : Dec} {z : DV} (he : ErrLen dec) (e : Bool) : ErrLen (decodePointer e dec z) := by
  intro b p x r e h
  unfold decodePointer at h
  split at h
  · split at h
    · split at h
      · obtain ⟨y, ey⟩ := map_errL h; exact he _ _ _ _ _ ey
      · contradiction
    · contradiction
  · obtain ⟨y, ey⟩ := map_errL h; exact he _ _ _ _ _ ey

theorem fromString_err {dec : Dec} (he : ErrLen dec) : ErrLen (decodeFromString dec) := by
  intro b p x r e h
  unfold decodeFromString at h
  split at h
  · exact he _ _ _ _ _ h
  · split at h
    · contradiction
    · exact suf4 ((input_suf h).trans List.nil_suffix)
    · rename_i hu
      have hs := unquote_suf hu
      repeat' split at h
      all_goals first | contradiction | (injection h with _ h _; exact h ▸ suf4 hs)

theorem unquotedErr_suf (l : Lib) (b : Bytes) : (unquotedErr l b).1 <:+ b := by
  unfold unquotedErr
  split
  · split <;> exact parseNumber_suf ‹_›
  · exact parseNumber_tail ‹_›

theorem fromStringToInt_err {l : Lib} {dec : Dec} (hd : Suff dec) (he : ErrLen dec) : ErrLen (decodeFromStringToInt l dec) := by
  intro b p x r e h
  unfold decodeFromStringToInt at h
  split at h
  · exact he _ _ _ _ _ h
  · split at h
    · injection h with _ h _; exact h ▸ suf4 (unquotedErr_suf l b)
    · split at h
      · injection h with _ h _; exact h ▸ suf4 (List.suffix_refl _)
      · split at h
        · contradiction
        · exact suf4 ((input_suf h).trans List.nil_suffix)
        · rename_i v0 b' n hu
          have hs := suf4 (unquote_suf hu)
          have hl := unquote_len hu
          have hz := stripZeroes_len v0
          simp only [] at h
          split at h
          · contradiction
          · rename_i hq
            have := (hd _ _ _ _ hq).length_le
            split at h
            · injection h with _ h _; rw [← h]; omega
            · contradiction
          · repeat' split at h
            all_goals first | contradiction | (injection h with _ h _; exact h ▸ hs)

theorem parseInto_err {dec : Dec} (he : ErrLen dec) : ErrLen (parseInto dec) := by
  intro b p x r e h
  unfold parseInto at h
  split at h
  · contradiction
  · rename_i r0 _ hq
    injection h with _ h _
    have := he _ _ _ _ _ hq
    have := (skip_suf b).length_le
    have := (skip_suf r0).length_le
    rw [← h]; omega
  · contradiction

theorem parseInvalid_err {b : Bytes} {p x : DV} {r : Bytes} {e : Err} (h : parseInvalid b p = .err x r e) : r <:+ b := by
  unfold parseInvalid at h
  split at h
  · injection h with _ h _
    exact h ▸ (skip_suf _).trans ((parseValue_tail ‹_›).trans (skip_suf b))
  · injection h with _ h _
    exact h ▸ (skip_suf _).trans ((parseValue_suf ‹_›).trans (skip_suf b))

theorem typeError_err {b : Bytes} {p x : DV} {r : Bytes} {e : Err} (h : decodeUnmarshalTypeError b p = .err x r e) : r <:+ b := by
  unfold decodeUnmarshalTypeError at h
  split at h
  · injection h with _ h _; exact h ▸ parseValue_tail ‹_›
  · injection h with _ h _; exact h ▸ parseValue_suf ‹_›

theorem iface_err {c : DCfg} {dyn : Ty → Dec} (hd : ∀ t, ErrLen (dyn t)) : ErrLen (decodeInterface c dyn) := by
  intro b p x r e h
  unfold decodeInterface at h
  split at h
  · split at h
    · split at h
      · contradiction
      · split at h
        · contradiction
        · rename_i hq; injection h with _ h _; exact h ▸ parseInto_err (hd _) _ _ _ _ _ hq
        · contradiction
    · split at h
      · contradiction
      · exact suf4 (parseInvalid_err h)
  · exact suf4 (ifaceValue_tail h)

theorem raw_err : ErrLen decodeRawMessage := by
  intro b p x r e h
  unfold decodeRawMessage at h
  split at h
  · exact suf4 (input_suf h)
  · contradiction

/-- **The rest after an error** is at most four times as long as the input. -/
theorem dec_err {c : DCfg} {dyn : Ty → Dec} (hd : ∀ t, Suff (dyn t)) (he : ∀ t, ErrLen (dyn t)) : ∀ t, ErrLen (dec c dyn t)
  | .bool => by
    intro b p x r e h
    simp only [dec, decodeBool] at h
    repeat' split at h
    all_goals first | contradiction | exact suf4 (input_suf h)
  | .int k => by intro b p x r e h; exact suf4 (decodeInt_err_suf h)
  | .float32 | .float64 | .number => by
    all_goals
      intro b p x r e h
      simp only [dec, decodeFloat, decodeNumber] at h
      repeat' split at h
      all_goals first | contradiction | exact suf4 (input_suf h)
  | .string => by intro b p x r e h; exact suf4 (string_err_suf h)
  | .bytes => by
    intro b p x r e h
    simp only [dec, decodeBytes] at h
    split at h
    · contradiction
    · split at h
      · exact suf4 (input_suf h)
      · split at h
        · exact suf4 (input_suf h)
        · split at h
          · split at h
            · obtain ⟨y, ey⟩ := map_errL h
              exact slice_err (decodeInt_suff _) _ _ _ _ _ ey
            · exact suf4 (input_suf h)
          · split at h
            · contradiction
            · exact suf4 (input_suf h)
            · rename_i hu
              split at h
              · injection h with _ h _; exact h ▸ suf4 (unquote_suf hu)
              · contradiction
  | .duration => by
    intro b p x r e h
    simp only [dec, decodeDuration] at h
    repeat' split at h
    all_goals first | contradiction | exact suf4 (input_suf h)
  | .time => by
    intro b p x r e h
    simp only [dec, decodeTime] at h
    repeat' split at h
    all_goals first | contradiction | exact suf4 (input_suf h)
  | .raw => raw_err
  | .iface => by simp only [dec]; exact iface_err he
  | .ifaceM em => by
    intro b p x r e h
    simp only [dec, decodeIfaceM] at h
    split at h
    · contradiction
    · split at h
      · split at h
        · obtain ⟨y, ey⟩ := map_errL h
          exact parseInto_err (he _) _ _ _ _ _ ey
        · exact suf4 (parseInvalid_err h)
        · exact suf4 (typeError_err h)
      · split at h
        · exact parseInto_err (iface_err he) _ _ _ _ _ h
        · exact suf4 (typeError_err h)
  | .slice t => by simp only [dec]; exact slice_err (dec_suff hd t)
  | .array n t => by simp only [dec]; exact array_err (dec_suff hd t) (dec_err hd he t) n
  | .map k t => by simp only [dec]; exact map_err (dec_suff hd t)
  | .mapSI => by simp only [dec]; exact map_err (iface_suff hd)
  | .mapRaw => by
    simp only [dec]
    exact map_err (show Suff (dec c dyn .raw) from dec_suff hd .raw)
  | .ptr t => by simp only [dec]; exact pointer_errL (dec_err hd he t) _
  | .struct fs => by simp only [dec]; exact struct_err (decF_suff hd fs)
  | .quoted t => by simp only [dec]; exact fromString_err (dec_err hd he t)
  | .quotedInt t => by simp only [dec]; exact fromStringToInt_err (dec_suff hd t) (dec_err hd he t)
  | .jsonU f => by
    intro b p x r e h
    simp only [dec, decodeJSONUnmarshaler] at h
    split at h
    · injection h with _ h _; exact h ▸ suf4 (parseValue_tail ‹_›)
    · rename_i hp
      have hs := parseValue_suf hp
      split at h
      · contradiction
      · split at h
        · injection h with _ h _; exact h ▸ suf4 hs
        · contradiction
  | .textU f => by intro b p x r e h; exact suf4 (textU_err_suf h)
  | .unsupported => by intro b p x r e h; exact suf4 (typeError_err h)

theorem decN_err (c : DCfg) : ∀ n t, ErrLen (decN c n t)
  | 0, t => dec_err (fun _ => by intro b p x r h; cases h) (fun _ => by intro b p x r e h; cases h) t
  | n + 1, t => dec_err (decN_suff c n) (decN_err c n) t

end JC
