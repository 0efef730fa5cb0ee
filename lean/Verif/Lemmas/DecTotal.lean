import Verif.Lemmas.DecPres
/-! Decoding consumes input, does not crash and does not run out of fuel. -/
namespace JC
open Spec Props

/-! ### consumption -/

/-- success consumes at least one byte -/
def Prog (dec : Dec) : Prop := ∀ b p x r, dec b p = .ok x r → r.length < b.length

theorem null_length {b : Bytes} (h : hasNullPrefix b = true) : (b.drop 4).length < b.length := by
  simp only [hasNullPrefix, Bool.and_eq_true, decide_eq_true_eq] at h
  have := h.1
  simp; omega

theorem parseValue_length {b v r : Bytes} (h : parseValue b = .ok v r) : r.length < b.length := by
  obtain ⟨rfl, j, hj⟩ := parseValue_sound h
  obtain ⟨c, t, rfl, _⟩ := derives_value_head hj
  simp; omega

theorem unquote_length {b s r : Bytes} {n : Bool} (h : parseStringUnquote b [] = .ok s r n) : r.length < b.length := by
  obtain ⟨v, hv, rfl⟩ := C04_unquote_only h
  obtain ⟨t, rfl⟩ := jstring_head hv
  simp; omega

theorem parseNumber_length {b v r : Bytes} (h : parseNumber b = .ok v r) : r.length < b.length := by
  obtain ⟨rfl, hv⟩ := parseNumber_sound h
  obtain ⟨c, t, rfl, _⟩ := jnumber_head hv
  simp; omega

theorem intLit_pos {l : Bytes} {z : Int} (h : IntLit l z) : 0 < l.length := by
  cases h with
  | nonneg i hi =>
    have := hi.digits.1
    cases l with
    | nil => exact absurd rfl this
    | cons => simp
  | neg => simp

theorem decodeInt_prog (k : IntKind) : Prog (decodeInt k) := by
  intro b p x r h
  unfold decodeInt at h
  split at h
  · rename_i hn; injection h with _ h; subst h; exact null_length hn
  · rename_i hn
    simp only [] at h
    split at h
    · rename_i he
      injection h with _ h
      rcases (C10_only k b _).2 he with ⟨h1, _⟩ | ⟨l, z, e2, hl, _⟩
      · exfalso
        apply hn
        have : b.length ≥ 4 := by
          have := congrArg List.length h1
          simp at this; omega
        simp [hasNullPrefix, h1, this]
      · have := intLit_pos (kindLit_lit hl)
        rw [← h]
        have e3 := congrArg List.length e2
        rw [List.length_append] at e3
        omega
    · simp at h

theorem sliceLoop_len {dec : Dec} {z : DV} (hd : Prog dec) {input : Bytes} : ∀ n (done mem : List DV) b x r,
    sliceLoop dec z input n done mem b = .ok x r → r.length < b.length := by
  intro n
  induction n with
  | zero => intro done mem b x r h; simp [sliceLoop] at h
  | succ n ih =>
    intro done mem b x r h
    have elem : ∀ b, sliceElem dec z input n done mem b = .ok x r → r.length < b.length := by
      intro b h
      unfold sliceElem at h
      split at h
      · simp at h
      · split at h <;> simp at h
      · rename_i e
        have := ih _ _ _ _ _ h
        have := hd _ _ _ _ e
        omega
    have hs := skipSpaces_length_le b
    rw [sliceLoop_succ] at h
    split at h
    · rename_i hh
      injection h with _ h
      cases e : skipSpaces b with
      | nil => rw [e] at hh; simp at hh
      | cons c t => rw [e] at h hs; simp at h hs; subst h; omega
    · split at h
      · have := elem _ h; omega
      · split at h
        · simp at h
        · rename_i c t e
          rw [e] at hs; simp at hs
          split at h
          · simp at h
          · have := elem _ h
            have := skipSpaces_length_le t
            omega

theorem slice_prog {dec : Dec} {z : DV} (hd : Prog dec) : Prog (decodeSlice dec z) := by
  intro b p x r h
  rw [decodeSlice_eq] at h
  split at h
  · rename_i hn; injection h with _ h; subst h; exact null_length hn
  · split at h
    · exact absurd h inputErr_ne
    · split at h
      · exact absurd h inputErr_ne
      · have := sliceLoop_len hd _ _ _ _ _ _ h
        simp; omega

theorem arrayRest_len {p : DV} : ∀ n b x r, arrayRest p n b = .ok x r → r.length < b.length := by
  intro n
  induction n with
  | zero => intro b x r h; simp [arrayRest] at h
  | succ n ih =>
    intro b x r h
    have hs := skipSpaces_length_le b
    simp only [arrayRest] at h
    split at h
    · simp at h
    · rename_i c t e
      rw [e] at hs; simp at hs
      split at h
      · injection h with _ h; subst h; omega
      · split at h
        · simp at h
        · rename_i e2
          have h1 := ih _ _ _ h
          have h2 := parseValue_length e2
          split at h2
          · have := skipSpaces_length_le t; omega
          · rw [e] at h2; simp at h2; omega

theorem arrayElems_len {dec : Dec} {z : DV} (hd : Prog dec) : ∀ n first (done mem : List DV) b x r,
    arrayElems dec z first done n mem b = .ok x r → r.length < b.length := by
  intro n
  induction n with
  | zero => intro first done mem b x r h; rw [arrayElems] at h; exact arrayRest_len _ _ _ _ h
  | succ n ih =>
    intro first done mem b x r h
    have elem : ∀ b, arrayElem dec z done n mem b = .ok x r → r.length < b.length := by
      intro b h
      unfold arrayElem at h
      split at h
      · simp at h
      · simp at h
      · rename_i e
        have := ih _ _ _ _ _ _ h
        have := hd _ _ _ _ e
        omega
    have hs := skipSpaces_length_le b
    cases first with
    | true => rw [arrayElems_first] at h; have := elem _ h; omega
    | false =>
      rw [arrayElems_next] at h
      split at h
      · simp at h
      · rename_i c t e
        rw [e] at hs; simp at hs
        split at h
        · have := elem _ h
          have := skipSpaces_length_le t
          omega
        · split at h
          · injection h with _ h; subst h; omega
          · simp at h

theorem array_prog {dec : Dec} {z : DV} (hd : Prog dec) (n : Nat) : Prog (decodeArray n dec z) := by
  intro b p x r h
  rw [decodeArray_eq] at h
  split at h
  · rename_i hn; injection h with _ h; subst h; exact null_length hn
  · split at h
    · exact absurd h inputErr_ne
    · split at h
      · exact absurd h inputErr_ne
      · have := arrayElems_len hd _ _ _ _ _ _ _ h
        simp; omega

theorem fromString_prog {dec : Dec} (hd : Prog dec) : Prog (decodeFromString dec) := by
  intro b p x r h
  unfold decodeFromString at h
  split at h
  · exact hd _ _ _ _ h
  · split at h
    · simp at h
    · exact absurd h inputErr_ne
    · rename_i e
      split at h
      · simp at h
      · simp at h
      · split at h
        · simp at h
        · injection h with _ h; subst h
          exact unquote_length e

theorem fromStringToInt_prog {l : Lib} {dec : Dec} (hd : Prog dec) : Prog (decodeFromStringToInt l dec) := by
  intro b p x r h
  unfold decodeFromStringToInt at h
  split at h
  · exact hd _ _ _ _ h
  · split at h
    · simp at h
    · split at h
      · simp at h
      · split at h
        · simp at h
        · exact absurd h inputErr_ne
        · rename_i eu
          simp only [] at h
          split at h
          · simp at h
          · split at h
            · simp at h
            · injection h with _ h; subst h
              exact unquote_length eu
          · split at h
            · split at h <;> simp at h
            · split at h
              · simp at h
              · split at h <;> simp at h

theorem string_prog : Prog decodeString := by
  intro b p x r h
  unfold decodeString at h
  split at h
  · rename_i hn; injection h with _ h; subst h; exact null_length hn
  · split at h
    · simp at h
    · split at h
      · exact absurd h inputErr_ne
      · simp at h
    · rename_i e; injection h with _ h; subst h; exact unquote_length e

theorem decodeKey_len {k : KTy} {b : Bytes} {x : DV} {r : Bytes} (h : decodeKey k b = .ok x r) : r.length < b.length := by
  cases k with
  | str => exact string_prog _ _ _ _ h
  | int k => exact fromString_prog (decodeInt_prog k) _ _ _ _ h
  | text tk =>
    obtain ⟨y, h1, _⟩ := decodeKey_text_ok h
    obtain ⟨v, hv, _⟩ := textU_inv h1
    exact parseValue_length hv

theorem fieldKey_len {b : Bytes} {x : DV} {r : Bytes} (h : fieldKey b = .ok x r) : r.length < b.length := by
  unfold fieldKey at h
  split at h
  · simp at h
  · simp at h
  · rename_i e; injection h with _ h; subst h; exact unquote_length e

theorem memberKey_len {key : Bytes → DRes} (hk : ∀ b x r, key b = .ok x r → r.length < b.length) {first : Bool} {b : Bytes} {d : DV} {r : Bytes}
    (h : memberKey key first b = .inr (.inr (d, r))) : r.length < b.length := by
  have one : ∀ b, memberKey key true b = .inr (.inr (d, r)) → r.length < b.length := by
    intro b h
    unfold memberKey at h
    simp only [if_true] at h
    split at h
    · simp at h
    · split at h
      · simp at h
      · simp at h
      · rename_i r0 e
        have h0 := hk _ _ _ e
        have h1 := skipSpaces_length_le r0
        split at h
        · simp at h
        · rename_i c t e2
          rw [e2] at h1; simp at h1
          split at h
          · simp at h
          · injection h with h; injection h with h; injection h with _ h; subst h
            have := skipSpaces_length_le t
            omega
  cases first with
  | true => exact one b h
  | false =>
    cases b with
    | nil => simp [memberKey] at h
    | cons c t =>
      by_cases hc : c = 0x2c
      · subst hc
        rw [memberKey_comma] at h
        have := one _ h
        have := skipSpaces_length_le t
        simp; omega
      · simp [memberKey, hc] at h

theorem mapLoopD_len {k : KTy} {dec : Dec} {z p : DV} {fresh : Bool} {input : Bytes} (hd : Prog dec) :
    ∀ n first (m : List (MK × DV)) b x r, mapLoopD k dec z p fresh input n first m b = .ok x r → r.length < b.length := by
  intro n
  induction n with
  | zero => intro first m b x r h; simp [mapLoopD] at h
  | succ n ih =>
    intro first m b x r h
    have hs := skipSpaces_length_le b
    rw [mapLoopD] at h
    simp only [] at h
    split at h
    · rename_i hh
      injection h with _ h
      cases e : skipSpaces b with
      | nil => rw [e] at hh; simp at hh
      | cons c t => rw [e] at h hs; simp at h hs; subst h; omega
    · split at h
      · simp at h
      · simp at h
      · rename_i e
        have h1 := memberKey_len (fun b x r h => decodeKey_len h) e
        split at h
        · simp at h
        · split at h <;> simp at h
        · rename_i e2
          have := ih _ _ _ _ _ h
          have := hd _ _ _ _ e2
          omega

theorem map_prog {k : KTy} {dec : Dec} {z : DV} (hd : Prog dec) : Prog (decodeMap k dec z) := by
  intro b p x r h
  unfold decodeMap at h
  split at h
  · rename_i hn; injection h with _ h; subst h; exact null_length hn
  · split at h
    · exact absurd h inputErr_ne
    · split at h
      · exact absurd h inputErr_ne
      · split at h
        all_goals
          have := mapLoopD_len hd _ _ _ _ _ _ h
          simp; omega

theorem structLoopD_len {decs : List Dec} (hd : ∀ d ∈ decs, Prog d) {c : DCfg} {names : List Bytes} {input : Bytes} :
    ∀ n first (fs : List DV) b x r, structLoopD c names decs input n first fs b = .ok x r → r.length < b.length := by
  intro n
  induction n with
  | zero => intro first m b x r h; simp [structLoopD] at h
  | succ n ih =>
    intro first fs b x r h
    have hs := skipSpaces_length_le b
    rw [structLoopD_succ] at h
    split at h
    · rename_i hh
      injection h with _ h
      cases e : skipSpaces b with
      | nil => rw [e] at hh; simp at hh
      | cons c t => rw [e] at h hs; simp at h hs; subst h; omega
    · split at h
      · simp at h
      · simp at h
      · rename_i e
        have h1 := memberKey_len (fun b x r h => fieldKey_len h) e
        unfold structField at h
        split at h
        · split at h
          · simp at h
          · split at h
            · simp at h
            · rename_i e2
              have := ih _ _ _ _ _ h
              have := parseValue_length e2
              omega
        · split at h
          · simp at h
          · rename_i e
            have hm := List.mem_of_getElem? e
            split at h
            · simp at h
            · split at h <;> simp at h
            · rename_i e2
              have := ih _ _ _ _ _ h
              have := hd _ hm _ _ _ _ e2
              omega

theorem struct_prog {decs : List Dec} (hd : ∀ d ∈ decs, Prog d) {c : DCfg} {names : List Bytes} : Prog (decodeStruct c names decs) := by
  intro b p x r h
  rw [decodeStruct_eq] at h
  split at h
  · rename_i hn; injection h with _ h; subst h; exact null_length hn
  · split at h
    · exact absurd h inputErr_ne
    · split at h
      · exact absurd h inputErr_ne
      · have := structLoopD_len hd _ _ _ _ _ _ h
        simp; omega

theorem ptr_prog {dec : Dec} {z : DV} (hd : Prog dec) (e : Bool) : Prog (decodePointer e dec z) := by
  intro b p x r h
  unfold decodePointer at h
  split at h
  · rename_i hn
    split at h
    · split at h
      · obtain ⟨y, ey, rfl⟩ := map_okD h
        exact hd _ _ _ _ ey
      · injection h with _ h; subst h; exact null_length hn
    · injection h with _ h; subst h; exact null_length hn
  · obtain ⟨y, ey, rfl⟩ := map_okD h
    exact hd _ _ _ _ ey

theorem ifaceEnd_rest {t : Ty} {b : Bytes} {d : DRes} {x : DV} {r : Bytes} (h : ifaceEnd t b d = .ok x r) : r = b := by
  unfold ifaceEnd at h
  split at h
  · simp at h
  · simp at h
  · split at h
    · simp at h
    · injection h with _ h; exact h.symm

theorem ifaceValue_rest {c : DCfg} {n : Nat} {b : Bytes} {p x : DV} {r : Bytes} (h : ifaceValue c n b p = .ok x r) :
    ∃ v, parseValue b = .ok v r := by
  cases n with
  | zero => simp [ifaceValue] at h
  | succ n =>
    rw [ifaceValue] at h
    simp only [] at h
    split at h
    · simp at h
    · rename_i e
      rw [e]
      split at h
      · simp at h
      · split at h
        · rw [ifaceEnd_rest h]; exact ⟨_, rfl⟩
        · split at h
          · rw [ifaceEnd_rest h]; exact ⟨_, rfl⟩
          · split at h
            · rw [ifaceEnd_rest h]; exact ⟨_, rfl⟩
            · split at h
              · split at h
                · simp at h
                · simp at h
                · split at h
                  · simp at h
                  · injection h with _ h; subst h; exact ⟨_, rfl⟩
              · split at h
                · rw [ifaceEnd_rest h]; exact ⟨_, rfl⟩
                · split at h
                  · split at h <;> (rw [ifaceEnd_rest h]; exact ⟨_, rfl⟩)
                  · simp at h

theorem parseInto_prog {dec : Dec} (hd : Prog dec) : Prog (parseInto dec) := by
  intro b p x r h
  unfold parseInto at h
  split at h
  · simp at h
  · simp at h
  · rename_i r0 e
    injection h with _ h; subst h
    have := hd _ _ _ _ e
    have := skipSpaces_length_le b
    have := skipSpaces_length_le r0
    omega

theorem iface_prog {c : DCfg} {dyn : Ty → Dec} (hd : ∀ t, Prog (dyn t)) : Prog (decodeInterface c dyn) := by
  intro b p x r h
  unfold decodeInterface at h
  split at h
  · split at h
    · split at h
      · rename_i hn
        simp only [Bool.and_eq_true] at hn
        injection h with _ h; subst h; exact null_length hn.2
      · split at h
        · simp at h
        · simp at h
        · rename_i e
          injection h with _ h; subst h
          exact parseInto_prog (hd _) _ _ _ _ e
    · split at h
      · rename_i hn; injection h with _ h; subst h; exact null_length hn
      · exact absurd h (parseInvalid_no _ _ _ _)
  · obtain ⟨v, e⟩ := ifaceValue_rest h
    exact parseValue_length e

mutual
theorem dec_prog {c : DCfg} {dyn : Ty → Dec} (hd : ∀ t, Prog (dyn t)) : ∀ t, Prog (dec c dyn t)
  | .bool => by
    intro b p x r h
    simp only [dec, decodeBool] at h
    split at h
    · rename_i hh; injection h with _ h; subst h; have := hh.1; simp; omega
    · split at h
      · rename_i hh; injection h with _ h; subst h; have := hh.1; simp; omega
      · split at h
        · rename_i hn; injection h with _ h; subst h; exact null_length hn
        · exact absurd h inputErr_ne
  | .int k => by simp only [dec]; exact decodeInt_prog k
  | .float32 | .float64 | .number => by
    all_goals
      intro b p x r h
      simp only [dec, decodeFloat, decodeNumber] at h
      split at h
      · rename_i hn; injection h with _ h; subst h; exact null_length hn
      · split at h
        · exact absurd h inputErr_ne
        · rename_i e
          first
            | (injection h with _ h; subst h; exact parseNumber_length e)
            | (split at h
               · exact absurd h inputErr_ne
               · injection h with _ h; subst h; exact parseNumber_length e)
  | .string => by simp only [dec]; exact string_prog
  | .bytes => by
    intro b p x r h
    simp only [dec, decodeBytes] at h
    split at h
    · rename_i hn; injection h with _ h; subst h; exact null_length hn
    · split at h
      · exact absurd h inputErr_ne
      · split at h
        · exact absurd h inputErr_ne
        · split at h
          · split at h
            · obtain ⟨y, ey, rfl⟩ := map_okD h
              exact slice_prog (decodeInt_prog _) _ _ _ _ ey
            · exact absurd h inputErr_ne
          · split at h
            · simp at h
            · exact absurd h inputErr_ne
            · rename_i e
              split at h
              · simp at h
              · injection h with _ h; subst h; exact unquote_length e
  | .duration => by
    intro b p x r h
    simp only [dec, decodeDuration] at h
    split at h
    · rename_i hn; injection h with _ h; subst h; exact null_length hn
    · split at h
      · exact absurd h inputErr_ne
      · split at h
        · split at h
          · exact absurd h inputErr_ne
          · rename_i e
            injection h with _ h; subst h
            obtain ⟨l, e2, hl, _⟩ := parseInt_ok e
            have := intLit_pos hl
            have e3 := congrArg List.length e2
            rw [List.length_append] at e3
            omega
        · split at h
          · exact absurd h inputErr_ne
          · split at h
            · exact absurd h inputErr_ne
            · split at h
              · exact absurd h inputErr_ne
              · injection h with _ h; subst h; simp; omega
  | .time => by
    intro b p x r h
    simp only [dec, decodeTime] at h
    split at h
    · rename_i hn; injection h with _ h; subst h; exact null_length hn
    · split at h
      · exact absurd h inputErr_ne
      · split at h
        · exact absurd h inputErr_ne
        · split at h
          · exact absurd h inputErr_ne
          · split at h
            · exact absurd h inputErr_ne
            · injection h with _ h; subst h; simp; omega
  | .raw => by
    intro b p x r h
    simp only [dec, decodeRawMessage] at h
    split at h
    · exact absurd h inputErr_ne
    · rename_i e; injection h with _ h; subst h; exact parseValue_length e
  | .iface => by simp only [dec]; exact iface_prog hd
  | .ifaceM em => by
    intro b p x r h
    simp only [dec, decodeIfaceM] at h
    split at h
    · rename_i hn; injection h with _ h; subst h; exact null_length hn
    · split at h
      · split at h
        · obtain ⟨y, ey, rfl⟩ := map_okD h
          exact parseInto_prog (hd _) _ _ _ _ ey
        · exact absurd h (parseInvalid_no _ _ _ _)
        · exact absurd h (typeError_no _ _ _ _)
      · split at h
        · exact parseInto_prog (iface_prog hd) _ _ _ _ h
        · exact absurd h (typeError_no _ _ _ _)
  | .slice t => by simp only [dec]; exact slice_prog (dec_prog hd t)
  | .array n t => by simp only [dec]; exact array_prog (dec_prog hd t) n
  | .map k t => by simp only [dec]; exact map_prog (dec_prog hd t)
  | .mapSI => by simp only [dec]; exact map_prog (iface_prog hd)
  | .mapRaw => by
    simp only [dec]
    apply map_prog
    intro b p x r h
    simp only [decodeRawMessage] at h
    split at h
    · exact absurd h inputErr_ne
    · rename_i e; injection h with _ h; subst h; exact parseValue_length e
  | .ptr t => by simp only [dec]; exact ptr_prog (dec_prog hd t) _
  | .struct fs => by simp only [dec]; exact struct_prog (decF_prog hd fs)
  | .quoted t => by simp only [dec]; exact fromString_prog (dec_prog hd t)
  | .quotedInt t => by simp only [dec]; exact fromStringToInt_prog (dec_prog hd t)
  | .jsonU f => by
    intro b p x r h
    simp only [dec, decodeJSONUnmarshaler] at h
    split at h
    · simp at h
    · rename_i e
      have := parseValue_length e
      split at h
      · injection h with _ h; subst h; exact this
      · split at h
        · simp at h
        · injection h with _ h; subst h; exact this
  | .textU f => by
    intro b p x r h
    simp only [dec, decodeTextUnmarshaler] at h
    split at h
    · simp at h
    · rename_i e
      have := parseValue_length e
      split at h
      · exact absurd h inputErr_ne
      · split at h
        · split at h
          · injection h with _ h; subst h; exact this
          · simp at h
        · split at h
          · split at h
            · simp at h
            · simp at h
            · split at h
              · simp at h
              · injection h with _ h; subst h; exact this
          · simp at h
  | .unsupported => by intro b p x r h; exact absurd h (typeError_no _ _ _ _)
theorem decF_prog {c : DCfg} {dyn : Ty → Dec} (hd : ∀ t, Prog (dyn t)) : ∀ fs, ∀ d ∈ decF c dyn fs, Prog d
  | [] => by simp [decF]
  | (_, t) :: fs => by
    intro d h
    simp only [decF, List.mem_cons] at h
    rcases h with rfl | h
    · exact dec_prog hd t
    · exact decF_prog hd fs d h
end

/-! ### no crash -/

/-- no crash on input shorter than `N` with a destination in `P` -/
def NC (P : DV → Prop) (N : Nat) (dec : Dec) : Prop := ∀ b, b.length < N → ∀ p, P p → ∀ c, dec b p ≠ .crash c

theorem NC.mono {P : DV → Prop} {N N' : Nat} {dec : Dec} (h : NC P N dec) (hn : N' ≤ N) : NC P N' dec :=
  fun b hb => h b (Nat.lt_of_lt_of_le hb hn)

theorem inputErr_nc {b : Bytes} {p : DV} {c : Crash} : inputErr b p ≠ .crash c := by simp [inputErr]

theorem sliceLoop_nc {P : DV → Prop} {N : Nat} {dec : Dec} {z : DV} (hc : NC P N dec) (hd : Prog dec) (hz : P z) {input : Bytes} :
    ∀ n (done mem : List DV) b c, b.length < n → b.length < N → (∀ y ∈ mem, P y) → sliceLoop dec z input n done mem b ≠ .crash c := by
  intro n
  induction n with
  | zero => intro done mem b c h; omega
  | succ n ih =>
    intro done mem b c hn hN hm
    have elem : ∀ b, b.length ≤ n → b.length < N → sliceElem dec z input n done mem b ≠ .crash c := by
      intro b h1 h2
      unfold sliceElem
      split
      · rename_i e; exact absurd e (hc _ h2 _ (mem_headD hz hm) _)
      · split <;> simp
      · rename_i e
        have := hd _ _ _ _ e
        exact ih _ _ _ _ (by omega) (by omega) (mem_tail hm)
    have hs := skipSpaces_length_le b
    rw [sliceLoop_succ]
    split
    · simp
    · split
      · exact elem _ (by omega) (by omega)
      · split
        · simp
        · rename_i c t e
          rw [e] at hs; simp at hs
          have := skipSpaces_length_le t
          split
          · simp
          · exact elem _ (by omega) (by omega)

theorem slice_nc {P : DV → Prop} {N : Nat} {dec : Dec} {z : DV} (hc : NC P N dec) (hd : Prog dec) (hz : P z) (PS : DV → Prop)
    (hs : ∀ d s, PS (.slice d s) ↔ (∀ y ∈ d, P y) ∧ ∀ y ∈ s, P y) : NC PS (N + 1) (decodeSlice dec z) := by
  intro b hb p hp c
  have hmem : ∀ x ∈ sliceMem p, P x := by
    cases p <;> simp [sliceMem]
    case slice xs sp =>
      rintro x (hx | hx)
      · exact ((hs _ _).1 hp).1 x hx
      · exact ((hs _ _).1 hp).2 x hx
  rw [decodeSlice_eq]
  split
  · simp
  · split
    · exact inputErr_nc
    · simp only [List.length_cons] at hb
      split
      · exact inputErr_nc
      · exact sliceLoop_nc hc hd hz _ _ _ _ _ (by simp; omega) (by omega) hmem

theorem arrayRest_nc {p : DV} : ∀ n b c, b.length < n → arrayRest p n b ≠ .crash c := by
  intro n
  induction n with
  | zero => intro b c h; omega
  | succ n ih =>
    intro b c hn
    have hs := skipSpaces_length_le b
    simp only [arrayRest]
    split
    · simp
    · rename_i ch t e
      rw [e] at hs; simp at hs
      split
      · simp
      · split
        · simp
        · rename_i e2
          have h2 := parseValue_length e2
          refine ih _ _ ?_
          split at h2
          · have := skipSpaces_length_le t; omega
          · rw [e] at h2; simp at h2; omega

theorem arrayElems_nc {P : DV → Prop} {N : Nat} {dec : Dec} {z : DV} (hc : NC P N dec) (hd : Prog dec) (hz : P z) :
    ∀ n first (done mem : List DV) b c, b.length < N → (∀ y ∈ mem, P y) → arrayElems dec z first done n mem b ≠ .crash c := by
  intro n
  induction n with
  | zero => intro first done mem b c _ _; rw [arrayElems]; exact arrayRest_nc _ _ _ (by omega)
  | succ n ih =>
    intro first done mem b c hN hm
    have elem : ∀ b, b.length < N → arrayElem dec z done n mem b ≠ .crash c := by
      intro b h2
      unfold arrayElem
      split
      · rename_i e; exact absurd e (hc _ h2 _ (mem_headD hz hm) _)
      · simp
      · rename_i e
        have := hd _ _ _ _ e
        exact ih _ _ _ _ _ (by omega) (mem_tail hm)
    have hs := skipSpaces_length_le b
    cases first with
    | true => rw [arrayElems_first]; exact elem _ (by omega)
    | false =>
      rw [arrayElems_next]
      split
      · simp
      · rename_i ch t e
        rw [e] at hs; simp at hs
        have := skipSpaces_length_le t
        split
        · exact elem _ (by omega)
        · split <;> simp

theorem array_nc {P : DV → Prop} {N : Nat} {dec : Dec} {z : DV} (hc : NC P N dec) (hd : Prog dec) (hz : P z) (PS : DV → Prop)
    (hs : ∀ d, PS (.array d) ↔ ∀ y ∈ d, P y) (n : Nat) : NC PS (N + 1) (decodeArray n dec z) := by
  intro b hb p hp c
  have hmem : ∀ x ∈ arrMem p, P x := by
    cases p <;> simp [arrMem]
    case array xs => exact (hs _).1 hp
  rw [decodeArray_eq]
  split
  · simp
  · split
    · exact inputErr_nc
    · simp only [List.length_cons] at hb
      split
      · exact inputErr_nc
      · exact arrayElems_nc hc hd hz _ _ _ _ _ _ (by omega) hmem

theorem decodeInt_nc (k : IntKind) (b : Bytes) (p : DV) (c : Crash) : decodeInt k b p ≠ .crash c := by
  unfold decodeInt
  split
  · simp
  · simp only []
    split
    all_goals (split <;> simp)

theorem decodeString_nc (b : Bytes) (p : DV) (c : Crash) : decodeString b p ≠ .crash c := by
  unfold decodeString
  split
  · simp
  · split
    · rename_i e; exact absurd e (C03_unquote_no_panic _ _)
    · split
      · exact inputErr_nc
      · simp
    · simp

theorem fromString_nc {P : DV → Prop} {dec : Dec} (hd : ∀ N, NC P N dec) (N : Nat) : NC P N (decodeFromString dec) := by
  intro b hb p hp c
  unfold decodeFromString
  split
  · exact hd N b hb p hp c
  · split
    · rename_i e; exact absurd e (C03_unquote_no_panic _ _)
    · exact inputErr_nc
    · split
      · rename_i e; exact absurd e (hd _ _ (Nat.lt_succ_self _) _ hp _)
      · simp
      · split <;> simp

theorem fromStringToInt_nc {P : DV → Prop} {l : Lib} {dec : Dec} (hd : ∀ N, NC P N dec) (N : Nat) : NC P N (decodeFromStringToInt l dec) := by
  intro b hb p hp c
  unfold decodeFromStringToInt
  split
  · exact hd N b hb p hp c
  · split
    · simp
    · split
      · simp
      · split
        · rename_i e; exact absurd e (C03_unquote_no_panic _ _)
        · exact inputErr_nc
        · simp only []
          split
          · rename_i e; exact absurd e (hd _ _ (Nat.lt_succ_self _) _ hp _)
          · split <;> simp
          · repeat' split
            all_goals simp

theorem memberKey_nc {key : Bytes → DRes} (hk : ∀ b c, key b ≠ .crash c) (first : Bool) (b : Bytes) (c : Crash) :
    memberKey key first b ≠ .inl c := by
  have one : ∀ b, memberKey key true b ≠ .inl c := by
    intro b
    unfold memberKey
    simp only [if_true]
    split
    · simp
    · split
      · rename_i e; exact absurd e (hk _ _)
      · simp
      · split
        · simp
        · split <;> simp
  cases first with
  | true => exact one b
  | false =>
    cases b with
    | nil => simp [memberKey]
    | cons ch t =>
      by_cases hc : ch = 0x2c
      · subst hc
        rw [memberKey_comma]
        exact one _
      · simp [memberKey, hc]

theorem decodeKey_nc (k : KTy) (b : Bytes) (c : Crash) : decodeKey k b ≠ .crash c := by
  cases k with
  | str => exact decodeString_nc _ _ _
  | int k => exact fromString_nc (P := fun _ => True) (fun N b _ p _ c => decodeInt_nc k b p c) (b.length + 1) b (by omega) _ trivial c
  | text tk =>
    simp only [decodeKey]
    split
    · rename_i e
      unfold decodeTextUnmarshaler at e
      repeat' split at e
      all_goals first
        | exact absurd e inputErr_nc
        | (rename_i e2; exact absurd e2 (C03_unquote_no_panic _ _))
        | (simp at e; done)
    · simp
    · simp

theorem fieldKey_nc (b : Bytes) (c : Crash) : fieldKey b ≠ .crash c := by
  unfold fieldKey
  split
  · rename_i e; exact absurd e (C03_unquote_no_panic _ _)
  · simp
  · simp

theorem mapLoopD_nc {P : DV → Prop} {N : Nat} {k : KTy} {dec : Dec} {z p : DV} {fresh : Bool} {input : Bytes} (hc : NC P N dec) (hd : Prog dec) (hz : P z) :
    ∀ n first (m : List (MK × DV)) b c, b.length < n → b.length < N → mapLoopD k dec z p fresh input n first m b ≠ .crash c := by
  intro n
  induction n with
  | zero => intro first m b c h; omega
  | succ n ih =>
    intro first m b c hn hN
    have hs := skipSpaces_length_le b
    rw [mapLoopD]
    simp only []
    split
    · simp
    · split
      · rename_i e; exact absurd e (memberKey_nc (decodeKey_nc k) _ _ _)
      · simp
      · rename_i e
        have h1 := memberKey_len (fun b x r h => decodeKey_len h) e
        split
        · rename_i e2; exact absurd e2 (hc _ (by omega) _ hz _)
        · split <;> simp
        · rename_i e2
          have := hd _ _ _ _ e2
          exact ih _ _ _ _ (by omega) (by omega)

theorem map_nc {P : DV → Prop} {N : Nat} {k : KTy} {dec : Dec} {z : DV} (hc : NC P N dec) (hd : Prog dec) (hz : P z) (PS : DV → Prop) :
    NC PS (N + 1) (decodeMap k dec z) := by
  intro b hb p hp c
  unfold decodeMap
  split
  · simp
  · split
    · exact inputErr_nc
    · simp only [List.length_cons] at hb
      split
      · exact inputErr_nc
      · split
        all_goals exact mapLoopD_nc hc hd hz _ _ _ _ _ (by simp; omega) (by omega)

theorem lastIdx_lt {α : Type} {p : α → Bool} {l : List α} {i : Nat} (h : lastIdx p l = some i) : i < l.length := by
  induction l generalizing i with
  | nil => simp [lastIdx] at h
  | cons x xs ih =>
    simp only [lastIdx] at h
    split at h
    · rename_i j e
      injection h with h; subst h
      have := ih e
      simp; omega
    · split at h
      · injection h with h; subst h; simp
      · simp at h

theorem firstIdx_lt {α : Type} {p : α → Bool} {l : List α} {i : Nat} (h : firstIdx p l = some i) : i < l.length := by
  induction l generalizing i with
  | nil => simp [firstIdx] at h
  | cons x xs ih =>
    simp only [firstIdx] at h
    split at h
    · injection h with h; subst h; simp
    · cases e : firstIdx p xs with
      | none => rw [e] at h; simp at h
      | some j =>
        rw [e] at h; simp at h; subst h
        have := ih e
        simp; omega

theorem pickField_lt {c : DCfg} {names : List Bytes} {k : Bytes} {i : Nat} (h : pickField c names k = some i) : i < names.length := by
  unfold pickField at h
  split at h
  · rename_i e; injection h with h; subst h; exact lastIdx_lt e
  · split at h
    · simp at h
    · exact firstIdx_lt h

theorem structLoopD_nc {P : DV → Prop} {N : Nat} {decs : List Dec} (hc : ∀ d ∈ decs, NC P N d) (hd : ∀ d ∈ decs, Prog d)
    (hp : ∀ d ∈ decs, Pres P d) (hu : P (.user none)) {c : DCfg} {names : List Bytes} (hl : names.length = decs.length) {input : Bytes} :
    ∀ n first (fs : List DV) b x, b.length < n → b.length < N → (∀ y ∈ fs, P y) → structLoopD c names decs input n first fs b ≠ .crash x := by
  intro n
  induction n with
  | zero => intro first m b x h; omega
  | succ n ih =>
    intro first fs b x hn hN hf
    have hs := skipSpaces_length_le b
    rw [structLoopD_succ]
    split
    · simp
    · split
      · rename_i e; exact absurd e (memberKey_nc fieldKey_nc _ _ _)
      · simp
      · rename_i e
        have h1 := memberKey_len (fun b x r h => fieldKey_len h) e
        unfold structField
        split
        · split
          · simp
          · split
            · simp
            · rename_i e2
              have := parseValue_length e2
              exact ih _ _ _ _ (by omega) (by omega) hf
        · rename_i i hpick
          have hlt := pickField_lt hpick
          split
          · rename_i e
            rw [List.getElem?_eq_none_iff] at e
            omega
          · rename_i e
            have hm := List.mem_of_getElem? e
            have hcell := mem_getD (i := i) hu hf
            split
            · rename_i e2; exact absurd e2 (hc _ hm _ (by omega) _ hcell _)
            · split <;> simp
            · rename_i e2
              have := hd _ hm _ _ _ _ e2
              exact ih _ _ _ _ (by omega) (by omega) (mem_set (hp _ hm _ _ _ _ hcell e2) hf)

theorem struct_nc {P : DV → Prop} {N : Nat} {decs : List Dec} (hc : ∀ d ∈ decs, NC P N d) (hd : ∀ d ∈ decs, Prog d)
    (hp : ∀ d ∈ decs, Pres P d) (hu : P (.user none)) {c : DCfg} {names : List Bytes} (hl : names.length = decs.length)
    (PS : DV → Prop) (hs : ∀ d, PS (.struct d) ↔ ∀ y ∈ d, P y) : NC PS (N + 1) (decodeStruct c names decs) := by
  intro b hb p hp' x
  have hmem : ∀ x ∈ structMem p, P x := by
    cases p <;> simp [structMem]
    case struct xs => exact (hs _).1 hp'
  rw [decodeStruct_eq]
  split
  · simp
  · split
    · exact inputErr_nc
    · simp only [List.length_cons] at hb
      split
      · exact inputErr_nc
      · exact structLoopD_nc hc hd hp hu hl _ _ _ _ _ (by simp; omega) (by omega) hmem

theorem map_crash {d : DRes} {g : DV → DV} {c : Crash} (h : d.map g = .crash c) : d = .crash c := by
  cases d <;> simp [DRes.map] at h
  rw [h]

theorem ptr_nc {P : DV → Prop} {N : Nat} {dec : Dec} {z : DV} (hc : NC P N dec) (hz : P z) (PS : DV → Prop)
    (hs : ∀ v, PS (.ptr v) ↔ P v) (e : Bool) : NC PS N (decodePointer e dec z) := by
  intro b hb p hp c
  unfold decodePointer
  split
  · split
    · split
      · intro h; exact hc b hb _ ((hs _).1 hp) _ (map_crash h)
      · simp
    · simp
  · intro h
    refine hc b hb _ ?_ _ (map_crash h)
    cases p <;> first | exact hz | exact (hs _).1 hp

theorem ifaceEnd_nc {t : Ty} {b : Bytes} {d : DRes} {c : Crash} (h : d ≠ .crash c) : ifaceEnd t b d ≠ .crash c := by
  unfold ifaceEnd
  split
  · rename_i c'; intro e; injection e with e; subst e; exact h rfl
  · simp
  · split <;> simp

theorem ifaceValue_prog (c : DCfg) (n : Nat) : Prog (ifaceValue c n) := by
  intro b p x r h
  obtain ⟨v, e⟩ := ifaceValue_rest h
  exact parseValue_length e

theorem ifaceValue_nc (c : DCfg) : ∀ n, NC (fun _ => True) n (ifaceValue c n) := by
  intro n
  induction n with
  | zero => intro b h; omega
  | succ n ih =>
    intro b hb p _ x
    rw [ifaceValue]
    simp only []
    split
    · simp
    · rename_i v r e
      obtain ⟨rfl, j, hj⟩ := parseValue_sound e
      obtain ⟨ch, t, rfl, _⟩ := derives_value_head hj
      simp only []
      have hv : (ch :: t).length < n + 1 := by simp at hb ⊢; omega
      split
      · exact ifaceEnd_nc (map_nc ih (ifaceValue_prog c n) trivial (fun _ => True) _ hv _ trivial _)
      · split
        · exact ifaceEnd_nc (slice_nc ih (ifaceValue_prog c n) trivial (fun _ => True) (by simp) _ hv _ trivial _)
        · split
          · exact ifaceEnd_nc (decodeString_nc _ _ _)
          · split
            · split
              · rename_i e2
                unfold decodeNull at e2
                split at e2
                · simp at e2
                · exact absurd e2 inputErr_nc
              · simp
              · split <;> simp
            · split
              · apply ifaceEnd_nc
                unfold decodeBool
                repeat' split
                all_goals first | exact inputErr_nc | simp
              · split
                · split
                  · apply ifaceEnd_nc
                    unfold decodeNumber
                    repeat' split
                    all_goals first | exact inputErr_nc | simp
                  · apply ifaceEnd_nc
                    unfold decodeFloat
                    repeat' split
                    all_goals first | exact inputErr_nc | simp
                · simp

theorem parseInto_nc {P : DV → Prop} {N : Nat} {dec : Dec} (hc : NC P N dec) : NC P N (parseInto dec) := by
  intro b hb p hp c
  have hs := skipSpaces_length_le b
  unfold parseInto
  split
  · rename_i e; exact absurd e (hc _ (by omega) _ hp _)
  · simp
  · simp

/-- `dyn` does not crash one level down -/
def DynNC (Q : Ty → Prop) (m : Nat) (dyn : Ty → Dec) : Prop :=
  ∀ m', m = m' + 1 → ∀ t, Q t → ∀ N, NC (Held Q · m') N (dyn t)

theorem parseInvalid_nc (b : Bytes) (p : DV) (c : Crash) : parseInvalid b p ≠ .crash c := by
  unfold parseInvalid; split <;> simp

theorem typeError_nc (b : Bytes) (p : DV) (c : Crash) : decodeUnmarshalTypeError b p ≠ .crash c := by
  unfold decodeUnmarshalTypeError; split <;> simp

theorem iface_nc {Q : Ty → Prop} {m N : Nat} {c : DCfg} {dyn : Ty → Dec} (hd : DynNC Q m dyn) :
    NC (Held Q · m) N (decodeInterface c dyn) := by
  intro b hb p hp x
  unfold decodeInterface
  split
  · split
    · split
      · simp
      · split
        · rename_i e
          cases m with
          | zero => simp [Held] at hp
          | succ m =>
            simp only [Held] at hp
            exact absurd e (parseInto_nc (hd m rfl _ hp.1 N) _ hb _ hp.2 _)
        · simp
        · simp
    · split
      · simp
      · exact parseInvalid_nc _ _ _
  · exact ifaceValue_nc c _ _ (by omega) _ trivial _

theorem decF_length {c : DCfg} {dyn : Ty → Dec} : ∀ fs, (decF c dyn fs).length = fs.length
  | [] => by simp [decF]
  | (_, t) :: fs => by simp [decF, decF_length fs]

mutual
theorem dec_nc {Q : Ty → Prop} {m : Nat} {c : DCfg} {dyn : Ty → Dec} (hd : DynNC Q m dyn) (hpr : DynPres Q m dyn)
    (hpg : ∀ t, Prog (dyn t)) : ∀ t N, NC (Held Q · m) N (dec c dyn t)
  | .bool, N | .float32, N | .float64, N | .number, N | .duration, N | .time, N | .raw, N => by
    all_goals
      intro b _ p _ x
      simp only [dec, decodeBool, decodeFloat, decodeNumber, decodeDuration, decodeTime, decodeRawMessage]
      repeat' split
      all_goals first | exact inputErr_nc | simp
  | .int k, N => by intro b _ p _ x; exact decodeInt_nc k b p x
  | .string, N => by intro b _ p _ x; exact decodeString_nc b p x
  | .bytes, N => by
    intro b hb p _ x
    simp only [dec, decodeBytes]
    split
    · simp
    · split
      · exact inputErr_nc
      · split
        · exact inputErr_nc
        · split
          · split
            · intro h
              have hn : NC (fun _ => True) N (decodeInt .uint8) := fun b _ p _ c => decodeInt_nc _ b p c
              exact slice_nc hn (decodeInt_prog _) trivial (fun _ => True) (by simp) _ (by omega) _ trivial _ (map_crash h)
            · exact inputErr_nc
          · split
            · rename_i e; exact absurd e (C03_unquote_no_panic _ _)
            · exact inputErr_nc
            · split <;> simp
  | .iface, N => by simp only [dec]; exact iface_nc hd
  | .ifaceM em, N => by
    intro b hb p hp x
    simp only [dec, decodeIfaceM]
    split
    · simp
    · split
      · split
        · intro h
          cases m with
          | zero => simp [Held] at hp
          | succ m =>
            simp only [Held] at hp
            exact absurd (map_crash h) (parseInto_nc (hd m rfl _ hp.1 N) _ hb _ hp.2 _)
        · exact parseInvalid_nc _ _ _
        · exact typeError_nc _ _ _
      · split
        · exact parseInto_nc (iface_nc hd) _ hb _ hp _
        · exact typeError_nc _ _ _
  | .slice t, N => by
    simp only [dec]
    exact (slice_nc (dec_nc hd hpr hpg t N) (dec_prog hpg t) (held_zero Q m t) _ (by intro d s; simp [Held, heldL_iff])).mono (Nat.le_succ N)
  | .array n t, N => by
    simp only [dec]
    exact (array_nc (dec_nc hd hpr hpg t N) (dec_prog hpg t) (held_zero Q m t) _ (by intro d; simp [Held, heldL_iff]) n).mono (Nat.le_succ N)
  | .map k t, N => by
    simp only [dec]
    exact (map_nc (dec_nc hd hpr hpg t N) (dec_prog hpg t) (held_zero Q m t) _).mono (Nat.le_succ N)
  | .mapSI, N => by
    simp only [dec]
    exact (map_nc (iface_nc (N := N) hd) (iface_prog hpg) (by simp [Held]) _).mono (Nat.le_succ N)
  | .mapRaw, N => by
    simp only [dec]
    have hn : NC (fun _ => True) N decodeRawMessage := by
      intro b _ p _ x
      simp only [decodeRawMessage]
      split
      · exact inputErr_nc
      · simp
    refine (map_nc hn ?_ trivial _).mono (Nat.le_succ N)
    have := dec_prog (c := c) hpg .raw
    simpa only [dec] using this
  | .ptr t, N => by
    simp only [dec]
    exact ptr_nc (dec_nc hd hpr hpg t N) (held_zero Q m t) _ (by intro v; simp [Held]) _
  | .struct fs, N => by
    simp only [dec]
    exact (struct_nc (decF_nc hd hpr hpg fs N) (decF_prog hpg fs) (decF_pres hpr fs) (by simp [Held]) (by rw [decF_length]; simp) _
      (by intro d; simp [Held, heldL_iff])).mono (Nat.le_succ N)
  | .quoted t, N => by simp only [dec]; exact fromString_nc (dec_nc hd hpr hpg t) N
  | .quotedInt t, N => by simp only [dec]; exact fromStringToInt_nc (dec_nc hd hpr hpg t) N
  | .jsonU f, N => by
    intro b _ p _ x
    simp only [dec, decodeJSONUnmarshaler]
    repeat' split
    all_goals simp
  | .textU f, N => by
    intro b _ p _ x
    simp only [dec, decodeTextUnmarshaler]
    repeat' split
    all_goals first
      | exact inputErr_nc
      | (rename_i e; exact absurd e (C03_unquote_no_panic _ _))
      | simp
  | .unsupported, N => by intro b _ p _ x; exact typeError_nc _ _ _
theorem decF_nc {Q : Ty → Prop} {m : Nat} {c : DCfg} {dyn : Ty → Dec} (hd : DynNC Q m dyn) (hpr : DynPres Q m dyn)
    (hpg : ∀ t, Prog (dyn t)) : ∀ fs N, ∀ d ∈ decF c dyn fs, NC (Held Q · m) N d
  | [], N => by simp [decF]
  | (_, t) :: fs, N => by
    intro d h
    simp only [decF, List.mem_cons] at h
    rcases h with rfl | h
    · exact dec_nc hd hpr hpg t N
    · exact decF_nc hd hpr hpg fs N d h
end

theorem decN_prog (c : DCfg) : ∀ n t, Prog (decN c n t)
  | 0, t => by
    simp only [decN]
    exact dec_prog (fun t b p x r h => by simp at h) t
  | n + 1, t => by
    simp only [decN]
    exact dec_prog (decN_prog c n) t

theorem decN_pres {Q : Ty → Prop} (c : DCfg) : ∀ n t, Pres (Held Q · n) (decN c n t)
  | 0, t => by
    simp only [decN]
    exact dec_pres (fun m' e => by omega) t
  | n + 1, t => by
    simp only [decN]
    refine dec_pres (fun m' e t _ => ?_) t
    obtain rfl : n = m' := by omega
    exact decN_pres c n t

theorem decN_nc {Q : Ty → Prop} (c : DCfg) : ∀ n t N, NC (Held Q · n) N (decN c n t)
  | 0, t, N => by
    simp only [decN]
    exact dec_nc (fun m' e => by omega) (fun m' e => by omega) (fun t b p x r h => by simp at h) t N
  | n + 1, t, N => by
    simp only [decN]
    refine dec_nc (fun m' e t _ N => ?_) (fun m' e t _ => ?_) (decN_prog c n) t N
    · obtain rfl : n = m' := by omega
      exact decN_nc c n t N
    · obtain rfl : n = m' := by omega
      exact decN_pres c n t

end JC
