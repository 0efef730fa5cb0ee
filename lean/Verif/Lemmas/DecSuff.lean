import Verif.Lemmas.DecTotal
/-! What a decoder leaves of its input is a suffix of it. -/
namespace JC
open Spec Props

/-- success leaves a suffix -/
def Suff (dec : Dec) : Prop := ∀ b p x r, dec b p = .ok x r → r <:+ b

theorem skip_suf (b : Bytes) : skipSpaces b <:+ b := ⟨_, wsPrefix_append b⟩

theorem drop_suf (b : Bytes) (n : Nat) : b.drop n <:+ b := List.drop_suffix n b

theorem parseValue_suf {b v r : Bytes} (h : parseValue b = .ok v r) : r <:+ b := by
  obtain ⟨rfl, j, hj⟩ := parseValue_sound h
  exact List.suffix_append _ _

theorem unquote_suf {b s r : Bytes} {n : Bool} (h : parseStringUnquote b [] = .ok s r n) : r <:+ b := by
  obtain ⟨v, hv, rfl⟩ := C04_unquote_only h
  exact List.suffix_append _ _

theorem parseNumber_suf {b v r : Bytes} (h : parseNumber b = .ok v r) : r <:+ b := by
  obtain ⟨rfl, hv⟩ := parseNumber_sound h
  exact List.suffix_append _ _

theorem skip_cons_suf {b t : Bytes} {c : UInt8} (e : skipSpaces b = c :: t) : t <:+ b :=
  (List.suffix_cons c t).trans (e ▸ skip_suf b)

theorem skip_tail_suf (b : Bytes) : (skipSpaces b).tail <:+ b := (List.tail_suffix _).trans (skip_suf b)

theorem decodeInt_suff (k : IntKind) : Suff (decodeInt k) := by
  intro b p x r h
  unfold decodeInt at h
  split at h
  · rename_i hn; injection h with _ h; subst h; exact drop_suf _ _
  · rename_i hn
    simp only [] at h
    split at h
    · rename_i he
      injection h with _ h
      rcases (C10_only k b _).2 he with ⟨h1, _⟩ | ⟨l, z, e2, hl, _⟩
      · exfalso
        apply hn
        have : b.length ≥ 4 := by
          have := congrArg List.length h1
          simp at this; omega
        simp [hasNullPrefix, h1, this]
      · rw [← h]
        exact ⟨l, e2.symm⟩
    · simp at h

theorem sliceLoop_suf {dec : Dec} {z : DV} (hd : Suff dec) {input : Bytes} : ∀ n (done mem : List DV) b x r,
    sliceLoop dec z input n done mem b = .ok x r → r <:+ b := by
  intro n
  induction n with
  | zero => intro done mem b x r h; simp [sliceLoop] at h
  | succ n ih =>
    intro done mem b x r h
    have elem : ∀ b, sliceElem dec z input n done mem b = .ok x r → r <:+ b := by
      intro b h
      unfold sliceElem at h
      split at h
      · simp at h
      · split at h <;> simp at h
      · rename_i e
        exact (ih _ _ _ _ _ h).trans (hd _ _ _ _ e)
    have hs := skip_suf b
    rw [sliceLoop_succ] at h
    split at h
    · rename_i hh
      injection h with _ h
      subst h
      exact skip_tail_suf b
    · split at h
      · exact (elem _ h).trans hs
      · split at h
        · simp at h
        · rename_i c t e
          split at h
          · simp at h
          · exact (elem _ h).trans ((skip_suf t).trans (skip_cons_suf e))

theorem slice_suff {dec : Dec} {z : DV} (hd : Suff dec) : Suff (decodeSlice dec z) := by
  intro b p x r h
  rw [decodeSlice_eq] at h
  split at h
  · rename_i hn; injection h with _ h; subst h; exact drop_suf _ _
  · split at h
    · exact absurd h inputErr_ne
    · split at h
      · exact absurd h inputErr_ne
      · exact (sliceLoop_suf hd _ _ _ _ _ _ h).trans (List.suffix_cons _ _)

theorem arrayRest_suf {p : DV} : ∀ n b x r, arrayRest p n b = .ok x r → r <:+ b := by
  intro n
  induction n with
  | zero => intro b x r h; simp [arrayRest] at h
  | succ n ih =>
    intro b x r h
    have hs := skip_suf b
    simp only [arrayRest] at h
    split at h
    · simp at h
    · rename_i c t e
      split at h
      · injection h with _ h; subst h; exact skip_cons_suf e
      · split at h
        · simp at h
        · rename_i e2
          have h1 := ih _ _ _ h
          have h2 := parseValue_suf e2
          split at h2
          · exact h1.trans (h2.trans ((skip_suf t).trans (skip_cons_suf e)))
          · exact h1.trans (h2.trans hs)

theorem arrayElems_suf {dec : Dec} {z : DV} (hd : Suff dec) : ∀ n first (done mem : List DV) b x r,
    arrayElems dec z first done n mem b = .ok x r → r <:+ b := by
  intro n
  induction n with
  | zero => intro first done mem b x r h; rw [arrayElems] at h; exact arrayRest_suf _ _ _ _ h
  | succ n ih =>
    intro first done mem b x r h
    have elem : ∀ b, arrayElem dec z done n mem b = .ok x r → r <:+ b := by
      intro b h
      unfold arrayElem at h
      split at h
      · simp at h
      · simp at h
      · rename_i e
        exact (ih _ _ _ _ _ _ h).trans (hd _ _ _ _ e)
    have hs := skip_suf b
    cases first with
    | true => rw [arrayElems_first] at h; exact (elem _ h).trans hs
    | false =>
      rw [arrayElems_next] at h
      split at h
      · simp at h
      · rename_i c t e
        split at h
        · exact (elem _ h).trans ((skip_suf t).trans (skip_cons_suf e))
        · split at h
          · injection h with _ h; subst h; exact skip_cons_suf e
          · simp at h

theorem array_suff {dec : Dec} {z : DV} (hd : Suff dec) (n : Nat) : Suff (decodeArray n dec z) := by
  intro b p x r h
  rw [decodeArray_eq] at h
  split at h
  · rename_i hn; injection h with _ h; subst h; exact drop_suf _ _
  · split at h
    · exact absurd h inputErr_ne
    · split at h
      · exact absurd h inputErr_ne
      · exact (arrayElems_suf hd _ _ _ _ _ _ _ h).trans (List.suffix_cons _ _)

theorem fromString_suff {dec : Dec} (hd : Suff dec) : Suff (decodeFromString dec) := by
  intro b p x r h
  unfold decodeFromString at h
  split at h
  · exact hd _ _ _ _ h
  · split at h
    · simp at h
    · exact absurd h inputErr_ne
    · rename_i e
      split at h
      · simp at h
      · simp at h
      · split at h
        · simp at h
        · injection h with _ h; subst h
          exact unquote_suf e

theorem fromStringToInt_suff {l : Lib} {dec : Dec} (hd : Suff dec) : Suff (decodeFromStringToInt l dec) := by
  intro b p x r h
  unfold decodeFromStringToInt at h
  split at h
  · exact hd _ _ _ _ h
  · split at h
    · simp at h
    · split at h
      · simp at h
      · split at h
        · simp at h
        · exact absurd h inputErr_ne
        · rename_i eu
          simp only [] at h
          split at h
          · simp at h
          · split at h
            · simp at h
            · injection h with _ h; subst h
              exact unquote_suf eu
          · split at h
            · split at h <;> simp at h
            · split at h
              · simp at h
              · split at h <;> simp at h

theorem string_suff : Suff decodeString := by
  intro b p x r h
  unfold decodeString at h
  split at h
  · rename_i hn; injection h with _ h; subst h; exact drop_suf _ _
  · split at h
    · simp at h
    · split at h
      · exact absurd h inputErr_ne
      · simp at h
    · rename_i e; injection h with _ h; subst h; exact unquote_suf e

theorem decodeKey_suf {k : KTy} {b : Bytes} {x : DV} {r : Bytes} (h : decodeKey k b = .ok x r) : r <:+ b := by
  cases k with
  | str => exact string_suff _ _ _ _ h
  | int k => exact fromString_suff (decodeInt_suff k) _ _ _ _ h
  | text tk =>
    obtain ⟨y, h1, _⟩ := decodeKey_text_ok h
    obtain ⟨v, hv, _⟩ := textU_inv h1
    exact parseValue_suf hv

theorem fieldKey_suf {b : Bytes} {x : DV} {r : Bytes} (h : fieldKey b = .ok x r) : r <:+ b := by
  unfold fieldKey at h
  split at h
  · simp at h
  · simp at h
  · rename_i e; injection h with _ h; subst h; exact unquote_suf e

theorem memberKey_suf {key : Bytes → DRes} (hk : ∀ b x r, key b = .ok x r → r <:+ b) {first : Bool} {b : Bytes} {d : DV} {r : Bytes}
    (h : memberKey key first b = .inr (.inr (d, r))) : r <:+ b := by
  have one : ∀ b, memberKey key true b = .inr (.inr (d, r)) → r <:+ b := by
    intro b h
    unfold memberKey at h
    simp only [if_true] at h
    split at h
    · simp at h
    · split at h
      · simp at h
      · simp at h
      · rename_i r0 e
        have h0 := hk _ _ _ e
        have h1 := skip_suf r0
        split at h
        · simp at h
        · rename_i c t e2
          split at h
          · simp at h
          · injection h with h; injection h with h; injection h with _ h; subst h
            exact (skip_suf t).trans ((skip_cons_suf e2).trans h0)
  cases first with
  | true => exact one b h
  | false =>
    cases b with
    | nil => simp [memberKey] at h
    | cons c t =>
      by_cases hc : c = 0x2c
      · subst hc
        rw [memberKey_comma] at h
        exact (one _ h).trans ((skip_suf t).trans (List.suffix_cons _ _))
      · simp [memberKey, hc] at h

theorem mapLoopD_suf {k : KTy} {dec : Dec} {z p : DV} {fresh : Bool} {input : Bytes} (hd : Suff dec) :
    ∀ n first (m : List (MK × DV)) b x r, mapLoopD k dec z p fresh input n first m b = .ok x r → r <:+ b := by
  intro n
  induction n with
  | zero => intro first m b x r h; simp [mapLoopD] at h
  | succ n ih =>
    intro first m b x r h
    have hs := skip_suf b
    rw [mapLoopD] at h
    simp only [] at h
    split at h
    · rename_i hh
      injection h with _ h
      subst h
      exact skip_tail_suf b
    · split at h
      · simp at h
      · simp at h
      · rename_i e
        have h1 := memberKey_suf (fun b x r h => decodeKey_suf h) e
        split at h
        · simp at h
        · split at h <;> simp at h
        · rename_i e2
          exact (ih _ _ _ _ _ h).trans ((hd _ _ _ _ e2).trans (h1.trans hs))

theorem map_suff {k : KTy} {dec : Dec} {z : DV} (hd : Suff dec) : Suff (decodeMap k dec z) := by
  intro b p x r h
  unfold decodeMap at h
  split at h
  · rename_i hn; injection h with _ h; subst h; exact drop_suf _ _
  · split at h
    · exact absurd h inputErr_ne
    · split at h
      · exact absurd h inputErr_ne
      · split at h
        all_goals
          exact (mapLoopD_suf hd _ _ _ _ _ _ h).trans (List.suffix_cons _ _)

theorem structLoopD_suf {decs : List Dec} (hd : ∀ d ∈ decs, Suff d) {c : DCfg} {names : List Bytes} {input : Bytes} :
    ∀ n first (fs : List DV) b x r, structLoopD c names decs input n first fs b = .ok x r → r <:+ b := by
  intro n
  induction n with
  | zero => intro first m b x r h; simp [structLoopD] at h
  | succ n ih =>
    intro first fs b x r h
    have hs := skip_suf b
    rw [structLoopD_succ] at h
    split at h
    · rename_i hh
      injection h with _ h
      subst h
      exact skip_tail_suf b
    · split at h
      · simp at h
      · simp at h
      · rename_i e
        have h1 := memberKey_suf (fun b x r h => fieldKey_suf h) e
        unfold structField at h
        split at h
        · split at h
          · simp at h
          · split at h
            · simp at h
            · rename_i e2
              exact (ih _ _ _ _ _ h).trans ((parseValue_suf e2).trans (h1.trans hs))
        · split at h
          · simp at h
          · rename_i e
            have hm := List.mem_of_getElem? e
            split at h
            · simp at h
            · split at h <;> simp at h
            · rename_i e2
              exact (ih _ _ _ _ _ h).trans ((hd _ hm _ _ _ _ e2).trans (h1.trans hs))

theorem struct_suff {decs : List Dec} (hd : ∀ d ∈ decs, Suff d) {c : DCfg} {names : List Bytes} : Suff (decodeStruct c names decs) := by
  intro b p x r h
  rw [decodeStruct_eq] at h
  split at h
  · rename_i hn; injection h with _ h; subst h; exact drop_suf _ _
  · split at h
    · exact absurd h inputErr_ne
    · split at h
      · exact absurd h inputErr_ne
      · exact (structLoopD_suf hd _ _ _ _ _ _ h).trans (List.suffix_cons _ _)

theorem ptr_suff {dec : Dec} {z : DV} (hd : Suff dec) (e : Bool) : Suff (decodePointer e dec z) := by
  intro b p x r h
  unfold decodePointer at h
  split at h
  · rename_i hn
    split at h
    · split at h
      · obtain ⟨y, ey, rfl⟩ := map_okD h
        exact hd _ _ _ _ ey
      · injection h with _ h; subst h; exact drop_suf _ _
    · injection h with _ h; subst h; exact drop_suf _ _
  · obtain ⟨y, ey, rfl⟩ := map_okD h
    exact hd _ _ _ _ ey

theorem parseInto_suff {dec : Dec} (hd : Suff dec) : Suff (parseInto dec) := by
  intro b p x r h
  unfold parseInto at h
  split at h
  · simp at h
  · simp at h
  · rename_i r0 e
    injection h with _ h; subst h
    exact (skip_suf r0).trans ((hd _ _ _ _ e).trans (skip_suf b))

theorem iface_suff {c : DCfg} {dyn : Ty → Dec} (hd : ∀ t, Suff (dyn t)) : Suff (decodeInterface c dyn) := by
  intro b p x r h
  unfold decodeInterface at h
  split at h
  · split at h
    · split at h
      · rename_i hn
        simp only [Bool.and_eq_true] at hn
        injection h with _ h; subst h; exact drop_suf _ _
      · split at h
        · simp at h
        · simp at h
        · rename_i e
          injection h with _ h; subst h
          exact parseInto_suff (hd _) _ _ _ _ e
    · split at h
      · rename_i hn; injection h with _ h; subst h; exact drop_suf _ _
      · exact absurd h (parseInvalid_no _ _ _ _)
  · obtain ⟨v, e⟩ := ifaceValue_rest h
    exact parseValue_suf e

mutual
theorem dec_suff {c : DCfg} {dyn : Ty → Dec} (hd : ∀ t, Suff (dyn t)) : ∀ t, Suff (dec c dyn t)
  | .bool => by
    intro b p x r h
    simp only [dec, decodeBool] at h
    split at h
    · rename_i hh; injection h with _ h; subst h; exact drop_suf _ _
    · split at h
      · rename_i hh; injection h with _ h; subst h; exact drop_suf _ _
      · split at h
        · rename_i hn; injection h with _ h; subst h; exact drop_suf _ _
        · exact absurd h inputErr_ne
  | .int k => by simp only [dec]; exact decodeInt_suff k
  | .float32 | .float64 | .number => by
    all_goals
      intro b p x r h
      simp only [dec, decodeFloat, decodeNumber] at h
      split at h
      · rename_i hn; injection h with _ h; subst h; exact drop_suf _ _
      · split at h
        · exact absurd h inputErr_ne
        · rename_i e
          first
            | (injection h with _ h; subst h; exact parseNumber_suf e)
            | (split at h
               · exact absurd h inputErr_ne
               · injection h with _ h; subst h; exact parseNumber_suf e)
  | .string => by simp only [dec]; exact string_suff
  | .bytes => by
    intro b p x r h
    simp only [dec, decodeBytes] at h
    split at h
    · rename_i hn; injection h with _ h; subst h; exact drop_suf _ _
    · split at h
      · exact absurd h inputErr_ne
      · split at h
        · exact absurd h inputErr_ne
        · split at h
          · split at h
            · obtain ⟨y, ey, rfl⟩ := map_okD h
              exact slice_suff (decodeInt_suff _) _ _ _ _ ey
            · exact absurd h inputErr_ne
          · split at h
            · simp at h
            · exact absurd h inputErr_ne
            · rename_i e
              split at h
              · simp at h
              · injection h with _ h; subst h; exact unquote_suf e
  | .duration => by
    intro b p x r h
    simp only [dec, decodeDuration] at h
    split at h
    · rename_i hn; injection h with _ h; subst h; exact drop_suf _ _
    · split at h
      · exact absurd h inputErr_ne
      · split at h
        · split at h
          · exact absurd h inputErr_ne
          · rename_i e
            injection h with _ h; subst h
            obtain ⟨l, e2, hl, _⟩ := parseInt_ok e
            exact ⟨l, e2.symm⟩
        · split at h
          · exact absurd h inputErr_ne
          · split at h
            · exact absurd h inputErr_ne
            · split at h
              · exact absurd h inputErr_ne
              · injection h with _ h; subst h; exact (drop_suf _ _).trans (List.suffix_cons _ _)
  | .time => by
    intro b p x r h
    simp only [dec, decodeTime] at h
    split at h
    · rename_i hn; injection h with _ h; subst h; exact drop_suf _ _
    · split at h
      · exact absurd h inputErr_ne
      · split at h
        · exact absurd h inputErr_ne
        · split at h
          · exact absurd h inputErr_ne
          · split at h
            · exact absurd h inputErr_ne
            · injection h with _ h; subst h; exact (drop_suf _ _).trans (List.suffix_cons _ _)
  | .raw => by
    intro b p x r h
    simp only [dec, decodeRawMessage] at h
    split at h
    · exact absurd h inputErr_ne
    · rename_i e; injection h with _ h; subst h; exact parseValue_suf e
  | .iface => by simp only [dec]; exact iface_suff hd
  | .ifaceM em => by
    intro b p x r h
    simp only [dec, decodeIfaceM] at h
    split at h
    · rename_i hn; injection h with _ h; subst h; exact drop_suf _ _
    · split at h
      · split at h
        · obtain ⟨y, ey, rfl⟩ := map_okD h
          exact parseInto_suff (hd _) _ _ _ _ ey
        · exact absurd h (parseInvalid_no _ _ _ _)
        · exact absurd h (typeError_no _ _ _ _)
      · split at h
        · exact parseInto_suff (iface_suff hd) _ _ _ _ h
        · exact absurd h (typeError_no _ _ _ _)
  | .slice t => by simp only [dec]; exact slice_suff (dec_suff hd t)
  | .array n t => by simp only [dec]; exact array_suff (dec_suff hd t) n
  | .map k t => by simp only [dec]; exact map_suff (dec_suff hd t)
  | .mapSI => by simp only [dec]; exact map_suff (iface_suff hd)
  | .mapRaw => by
    simp only [dec]
    apply map_suff
    intro b p x r h
    simp only [decodeRawMessage] at h
    split at h
    · exact absurd h inputErr_ne
    · rename_i e; injection h with _ h; subst h; exact parseValue_suf e
  | .ptr t => by simp only [dec]; exact ptr_suff (dec_suff hd t) _
  | .struct fs => by simp only [dec]; exact struct_suff (decF_suff hd fs)
  | .quoted t => by simp only [dec]; exact fromString_suff (dec_suff hd t)
  | .quotedInt t => by simp only [dec]; exact fromStringToInt_suff (dec_suff hd t)
  | .jsonU f => by
    intro b p x r h
    simp only [dec, decodeJSONUnmarshaler] at h
    split at h
    · simp at h
    · rename_i e
      have := parseValue_suf e
      split at h
      · injection h with _ h; subst h; exact this
      · split at h
        · simp at h
        · injection h with _ h; subst h; exact this
  | .textU f => by
    intro b p x r h
    simp only [dec, decodeTextUnmarshaler] at h
    split at h
    · simp at h
    · rename_i e
      have := parseValue_suf e
      split at h
      · exact absurd h inputErr_ne
      · split at h
        · split at h
          · injection h with _ h; subst h; exact this
          · simp at h
        · split at h
          · split at h
            · simp at h
            · simp at h
            · split at h
              · simp at h
              · injection h with _ h; subst h; exact this
          · simp at h
  | .unsupported => by intro b p x r h; exact absurd h (typeError_no _ _ _ _)
theorem decF_suff {c : DCfg} {dyn : Ty → Dec} (hd : ∀ t, Suff (dyn t)) : ∀ fs, ∀ d ∈ decF c dyn fs, Suff d
  | [] => by simp [decF]
  | (_, t) :: fs => by
    intro d h
    simp only [decF, List.mem_cons] at h
    rcases h with rfl | h
    · exact dec_suff hd t
    · exact decF_suff hd fs d h
end


theorem decN_suff (c : DCfg) : ∀ n t, Suff (decN c n t)
  | 0, t => dec_suff (fun _ => by intro b p x r h; cases h) t
  | n + 1, t => dec_suff (decN_suff c n) t

end JC
