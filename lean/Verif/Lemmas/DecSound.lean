import Verif.Lemmas.DecTotal
import Verif.Lemmas.DecAll
/-! What the decoders accept is valid JSON, for types without arrays. -/
namespace JC
open Spec Props

/-- `b` is a value in whitespace followed by `r` -/
def Val (b r : Bytes) : Prop :=
  ∃ w1 v w2 j, Ws w1 ∧ Ws w2 ∧ Derives (.value j) v ∧ b = w1 ++ (v ++ (w2 ++ r))

def SoundP (P : DV → Prop) (dec : Dec) : Prop := ∀ b p x r, P p → dec b p = .ok x r → Val b r

theorem ws_nil : Ws [] := by intro c h; simp at h

theorem ws_append {a b : Bytes} (ha : Ws a) (hb : Ws b) : Ws (a ++ b) := by
  intro c h
  rcases List.mem_append.1 h with h | h
  · exact ha c h
  · exact hb c h

theorem Val.of {v r : Bytes} {j : Json} (h : Derives (.value j) v) : Val (v ++ r) r :=
  ⟨[], v, [], j, ws_nil, ws_nil, h, by simp⟩

theorem Val.skip {b r : Bytes} (h : Val (skipSpaces b) r) : Val b r := by
  obtain ⟨w1, v, w2, j, h1, h2, hj, e⟩ := h
  obtain ⟨w, hw, eb⟩ := exists_skip b
  exact ⟨w ++ w1, v, w2, j, ws_append hw h1, h2, hj, by rw [eb, e]; simp⟩

theorem Val.rest {b r : Bytes} (h : Val b r) : Val b (skipSpaces r) := by
  obtain ⟨w1, v, w2, j, h1, h2, hj, e⟩ := h
  obtain ⟨w, hw, er⟩ := exists_skip r
  refine ⟨w1, v, w2 ++ w, j, h1, ws_append h2 hw, hj, ?_⟩
  rw [e, List.append_assoc w2 w, ← er]

theorem val_null {b : Bytes} (h : hasNullPrefix b = true) : Val b (b.drop 4) := by
  simp only [hasNullPrefix, Bool.and_eq_true, beq_iff_eq] at h
  have : b = [0x6e, 0x75, 0x6c, 0x6c] ++ b.drop 4 := by
    conv => lhs; rw [← List.take_append_drop 4 b, h.2]
  conv => lhs; rw [this]
  exact Val.of .null

theorem val_parse {b v r : Bytes} (h : parseValue b = .ok v r) : Val b r := by
  obtain ⟨rfl, j, hj⟩ := parseValue_sound h
  exact Val.of hj

theorem val_unquote {b s r : Bytes} {n : Bool} (h : parseStringUnquote b [] = .ok s r n) : Val b r := by
  obtain ⟨v, hv, rfl⟩ := C04_unquote_only h
  exact Val.of (.str _ hv)

theorem val_number {b v r : Bytes} (h : parseNumber b = .ok v r) : Val b r := by
  obtain ⟨rfl, hv⟩ := parseNumber_sound h
  exact Val.of (.num _ hv)

theorem intLit_number {l : Bytes} {z : Int} (h : IntLit l z) : JNumber l := by
  cases h with
  | nonneg i hi =>
    have := JNumber.mk [] l [] [] (.inl rfl) hi .none .none
    simpa using this
  | neg i hi =>
    have := JNumber.mk [0x2d] i [] [] (.inr rfl) hi .none .none
    simpa using this

theorem decodeInt_sound (k : IntKind) : SoundP (fun _ => True) (decodeInt k) := by
  intro b p x r _ h
  unfold decodeInt at h
  split at h
  · rename_i hn; injection h with _ h; subst h; exact val_null hn
  · rename_i hn
    simp only [] at h
    split at h
    · rename_i he
      injection h with _ h
      rcases (C10_only k b _).2 he with ⟨h1, _⟩ | ⟨l, z, e2, hl, _⟩
      · exfalso
        apply hn
        have : b.length ≥ 4 := by
          have := congrArg List.length h1
          simp at this; omega
        simp [hasNullPrefix, h1, this]
      · rw [h] at e2
        rw [e2]
        exact Val.of (.num _ (intLit_number (kindLit_lit hl)))
    · simp at h

/-- `b` is the inside of a nonempty array, a closing bracket and `r` -/
def InArr (b r : Bytes) : Prop := ∃ xs m, Derives (.elems xs) m ∧ b = m ++ 0x5d :: r

theorem elems_ws {s : Sym} {m : Bytes} (h : Derives s m) {w : Bytes} (hw : Ws w) : ∀ xs, s = .elems xs → Derives (.elems xs) (w ++ m) := by
  intro xs e
  subst e
  cases h with
  | elemOne w1 w2 j b h1 h2 hj =>
    have := Derives.elemOne (w ++ w1) w2 j b (ws_append hw h1) h2 hj
    simpa using this
  | elemCons w1 w2 j b xs bs h1 h2 hj hx =>
    have := Derives.elemCons (w ++ w1) w2 j b xs bs (ws_append hw h1) h2 hj hx
    simpa using this

theorem members_ws {s : Sym} {m : Bytes} (h : Derives s m) {w : Bytes} (hw : Ws w) : ∀ xs, s = .members xs → Derives (.members xs) (w ++ m) := by
  intro xs e
  subst e
  cases h with
  | memOne w1 w2 w3 w4 k j b h1 h2 h3 h4 hk hj =>
    have := Derives.memOne (w ++ w1) w2 w3 w4 k j b (ws_append hw h1) h2 h3 h4 hk hj
    simpa using this
  | memCons w1 w2 w3 w4 k j b ms bs h1 h2 h3 h4 hk hj hx =>
    have := Derives.memCons (w ++ w1) w2 w3 w4 k j b ms bs (ws_append hw h1) h2 h3 h4 hk hj hx
    simpa using this

theorem InArr.skip {b r : Bytes} (h : InArr (skipSpaces b) r) : InArr b r := by
  obtain ⟨xs, m, hm, e⟩ := h
  obtain ⟨w, hw, eb⟩ := exists_skip b
  exact ⟨xs, w ++ m, elems_ws hm hw _ rfl, by rw [eb, e]; simp⟩

/-- after an element: the end, or a comma and more -/
def ArrTail (b r : Bytes) : Prop := skipSpaces b = 0x5d :: r ∨ ∃ t, skipSpaces b = 0x2c :: t ∧ InArr t r

theorem InArr.step {b r1 r : Bytes} (h : Val b r1) (ht : ArrTail r1 r) : InArr b r := by
  obtain ⟨w1, v, w2, j, h1, h2, hj, e⟩ := h
  obtain ⟨w, hw, er⟩ := exists_skip r1
  rcases ht with e2 | ⟨t, e2, xs, m, hm, et⟩
  · refine ⟨[j], w1 ++ v ++ (w2 ++ w), .elemOne _ _ _ _ h1 (ws_append h2 hw) hj, ?_⟩
    rw [e2] at er
    rw [e, er]; simp
  · refine ⟨j :: xs, w1 ++ v ++ (w2 ++ w) ++ 0x2c :: m, .elemCons _ _ _ _ _ _ h1 (ws_append h2 hw) hj hm, ?_⟩
    rw [e2, et] at er
    rw [e, er]; simp

theorem sliceLoop_sound {P : DV → Prop} {dec : Dec} {z : DV} (hd : SoundP P dec) (hz : P z) {input : Bytes} : ∀ n (done mem : List DV) b x r,
    (∀ y ∈ mem, P y) → sliceLoop dec z input n done mem b = .ok x r →
    (done = [] → skipSpaces b = 0x5d :: r ∨ InArr b r) ∧ (done ≠ [] → ArrTail b r) := by
  intro n
  induction n with
  | zero => intro done mem b x r _ h; simp [sliceLoop] at h
  | succ n ih =>
    intro done mem b x r hm h
    have elem : ∀ b, sliceElem dec z input n done mem b = .ok x r → InArr b r := by
      intro b h
      unfold sliceElem at h
      split at h
      · simp at h
      · split at h <;> simp at h
      · rename_i e
        have := (ih _ _ _ _ _ (mem_tail hm) h).2 (by simp)
        exact InArr.step (hd _ _ _ _ (mem_headD hz hm) e) this
    rw [sliceLoop_succ] at h
    split at h
    · rename_i hh
      injection h with _ h
      have : skipSpaces b = 0x5d :: r := by
        cases e : skipSpaces b with
        | nil => rw [e] at hh; simp at hh
        | cons c t => rw [e] at hh h; simp at hh h; rw [hh, h]
      exact ⟨fun _ => .inl this, fun _ => .inl this⟩
    · split at h
      · rename_i hemp
        refine ⟨fun _ => .inr (elem _ h).skip, fun hne => ?_⟩
        rw [List.isEmpty_iff] at hemp
        exact absurd hemp hne
      · rename_i hemp
        refine ⟨fun hh => absurd (by simp [hh]) hemp, fun _ => ?_⟩
        split at h
        · simp at h
        · rename_i c t e
          split at h
          · simp at h
          · rename_i hc
            have hc : c = 0x2c := by simpa using hc
            subst hc
            exact .inr ⟨t, e, (elem _ h).skip⟩

theorem slice_sound {P : DV → Prop} {dec : Dec} {z : DV} (hd : SoundP P dec) (hz : P z) (PS : DV → Prop)
    (hs : ∀ d s, PS (.slice d s) ↔ (∀ y ∈ d, P y) ∧ ∀ y ∈ s, P y) : SoundP PS (decodeSlice dec z) := by
  intro b p x r hp h
  have hmem : ∀ x ∈ sliceMem p, P x := by
    cases p <;> simp [sliceMem]
    case slice xs sp =>
      rintro x (hx | hx)
      · exact ((hs _ _).1 hp).1 x hx
      · exact ((hs _ _).1 hp).2 x hx
  rw [decodeSlice_eq] at h
  split at h
  · rename_i hn; injection h with _ h; subst h; exact val_null hn
  · split at h
    · exact absurd h inputErr_ne
    · rename_i c t _
      split at h
      · exact absurd h inputErr_ne
      · rename_i hc
        have hc : c = 0x5b := by simp at hc; exact hc.2
        subst hc
        rcases (sliceLoop_sound hd hz _ _ _ _ _ _ hmem h).1 rfl with e | ⟨xs, m, hm, e⟩
        · obtain ⟨w, hw, et⟩ := exists_skip t
          rw [e] at et
          have := Val.of (r := r) (Derives.arrNil w hw)
          rw [et]; simpa using this
        · have := Val.of (r := r) (Derives.arr xs m hm)
          rw [e]; simpa using this

/-- `b` is the inside of a nonempty object, a closing brace and `r` -/
def InObj (b r : Bytes) : Prop := ∃ xs m, Derives (.members xs) m ∧ b = m ++ 0x7d :: r

theorem InObj.skip {b r : Bytes} (h : InObj (skipSpaces b) r) : InObj b r := by
  obtain ⟨xs, m, hm, e⟩ := h
  obtain ⟨w, hw, eb⟩ := exists_skip b
  exact ⟨xs, w ++ m, members_ws hm hw _ rfl, by rw [eb, e]; simp⟩

def ObjTail (b r : Bytes) : Prop := skipSpaces b = 0x7d :: r ∨ ∃ t, skipSpaces b = 0x2c :: t ∧ InObj t r

/-- `b` is a key and a colon, then `T` -/
def KeyOf (b T : Bytes) : Prop := ∃ w1 k w2, Ws w1 ∧ Ws w2 ∧ JString k ∧ b = w1 ++ (k ++ (w2 ++ 0x3a :: T))

theorem KeyOf.skip {b T : Bytes} (h : KeyOf (skipSpaces b) T) : KeyOf b T := by
  obtain ⟨w1, k, w2, h1, h2, hk, e⟩ := h
  obtain ⟨w, hw, eb⟩ := exists_skip b
  exact ⟨w ++ w1, k, w2, ws_append hw h1, h2, hk, by rw [eb, e]; simp⟩

theorem InObj.step {b T r1 r : Bytes} (hk : KeyOf b T) (h : Val T r1) (ht : ObjTail r1 r) : InObj b r := by
  obtain ⟨u1, k, u2, g1, g2, hk, eb⟩ := hk
  obtain ⟨w1, v, w2, j, h1, h2, hj, e⟩ := h
  obtain ⟨w, hw, er⟩ := exists_skip r1
  rcases ht with e2 | ⟨t, e2, xs, m, hm, et⟩
  · refine ⟨[(k, j)], u1 ++ k ++ u2 ++ 0x3a :: (w1 ++ v ++ (w2 ++ w)), .memOne _ _ _ _ _ _ _ g1 g2 h1 (ws_append h2 hw) hk hj, ?_⟩
    rw [e2] at er
    rw [eb, e, er]; simp
  · refine ⟨(k, j) :: xs, u1 ++ k ++ u2 ++ 0x3a :: (w1 ++ v ++ (w2 ++ w) ++ 0x2c :: m),
      .memCons _ _ _ _ _ _ _ _ _ g1 g2 h1 (ws_append h2 hw) hk hj hm, ?_⟩
    rw [e2, et] at er
    rw [eb, e, er]; simp

theorem memberKey_sound {key : Bytes → DRes} (hk : ∀ b x r, hasNullPrefix b = false → key b = .ok x r → ∃ k, JString k ∧ b = k ++ r)
    {b T : Bytes} {d : DV} (h : memberKey key true b = .inr (.inr (d, T))) : ∃ T', T = skipSpaces T' ∧ KeyOf b T' := by
  unfold memberKey at h
  simp only [if_true] at h
  split at h
  · simp at h
  · rename_i hn
    split at h
    · simp at h
    · simp at h
    · rename_i r0 e
      obtain ⟨k, hks, rfl⟩ := hk _ _ _ (by simpa using hn) e
      obtain ⟨w, hw, er⟩ := exists_skip r0
      split at h
      · simp at h
      · rename_i c t e2
        split at h
        · simp at h
        · rename_i hc
          have hc : c = 0x3a := by simpa using hc
          subst hc
          injection h with h; injection h with h; injection h with _ h
          refine ⟨t, h.symm, [], k, w, ws_nil, hw, hks, ?_⟩
          rw [e2] at er
          rw [← er]; simp

theorem decodeKey_sound {k : KTy} {b r : Bytes} {x : DV} (hn : hasNullPrefix b = false) (h : decodeKey k b = .ok x r) :
    ∃ s, JString s ∧ b = s ++ r := by
  cases k with
  | str =>
    simp only [decodeKey, decodeString, hn, Bool.false_eq_true, if_false] at h
    split at h
    · simp at h
    · split at h
      · exact absurd h inputErr_ne
      · simp at h
    · rename_i e
      injection h with _ h; subst h
      obtain ⟨v, hv, e2⟩ := C04_unquote_only e
      exact ⟨v, hv, e2⟩
  | int k =>
    simp only [decodeKey, decodeFromString, hn, Bool.false_eq_true, if_false] at h
    split at h
    · simp at h
    · exact absurd h inputErr_ne
    · rename_i e
      obtain ⟨v, hv, e2⟩ := C04_unquote_only e
      split at h
      · simp at h
      · simp at h
      · split at h
        · simp at h
        · injection h with _ h; subst h
          exact ⟨v, hv, e2⟩
  | text tk =>
    obtain ⟨y, h1, _⟩ := decodeKey_text_ok h
    obtain ⟨s, hs, e, _⟩ := textU_key hn h1
    exact ⟨s, hs, e⟩

theorem fieldKey_sound {b r : Bytes} {x : DV} (h : fieldKey b = .ok x r) : ∃ s, JString s ∧ b = s ++ r := by
  unfold fieldKey at h
  split at h
  · simp at h
  · simp at h
  · rename_i e
    injection h with _ h; subst h
    obtain ⟨v, hv, e2⟩ := C04_unquote_only e
    exact ⟨v, hv, e2⟩

/-- one member: after the first one, `KeyOf` may be preceded by a comma -/
theorem memberKey_step {key : Bytes → DRes} (hk : ∀ b x r, hasNullPrefix b = false → key b = .ok x r → ∃ k, JString k ∧ b = k ++ r)
    {first : Bool} {b T r r1 : Bytes} {d : DV} (h : memberKey key first (skipSpaces b) = .inr (.inr (d, T)))
    (hv : Val T r1) (ht : ObjTail r1 r) : (first = true → InObj b r) ∧ (first = false → ObjTail b r) := by
  cases first with
  | true =>
    obtain ⟨T', rfl, h1⟩ := memberKey_sound hk h
    exact ⟨fun _ => InObj.step h1.skip hv.skip ht, by simp⟩
  | false =>
    refine ⟨by simp, fun _ => ?_⟩
    cases e : skipSpaces b with
    | nil => rw [e] at h; simp [memberKey] at h
    | cons c t =>
      rw [e] at h
      by_cases hc : c = 0x2c
      · subst hc
        rw [memberKey_comma] at h
        obtain ⟨T', rfl, h1⟩ := memberKey_sound hk h
        exact .inr ⟨t, e, InObj.step h1.skip hv.skip ht⟩
      · simp [memberKey, hc] at h

theorem mapLoopD_sound {P : DV → Prop} {k : KTy} {dec : Dec} {z p : DV} {fresh : Bool} {input : Bytes} (hd : SoundP P dec) (hz : P z) :
    ∀ n first (m : List (MK × DV)) b x r, mapLoopD k dec z p fresh input n first m b = .ok x r →
      (first = true → skipSpaces b = 0x7d :: r ∨ InObj b r) ∧ (first = false → ObjTail b r) := by
  intro n
  induction n with
  | zero => intro first m b x r h; simp [mapLoopD] at h
  | succ n ih =>
    intro first m b x r h
    rw [mapLoopD] at h
    simp only [] at h
    split at h
    · rename_i hh
      injection h with _ h
      have : skipSpaces b = 0x7d :: r := by
        cases e : skipSpaces b with
        | nil => rw [e] at hh; simp at hh
        | cons c t => rw [e] at hh h; simp at hh h; rw [hh, h]
      exact ⟨fun _ => .inl this, fun _ => .inl this⟩
    · split at h
      · simp at h
      · simp at h
      · rename_i e
        split at h
        · simp at h
        · split at h <;> simp at h
        · rename_i e2
          have h1 := (ih _ _ _ _ _ h).2 rfl
          have h2 := memberKey_step (fun b x r hn h => decodeKey_sound hn h) e (hd _ _ _ _ hz e2) h1
          exact ⟨fun hf => .inr (h2.1 hf), h2.2⟩

theorem objNil_val {t r : Bytes} (e : skipSpaces t = 0x7d :: r) : Val (0x7b :: t) r := by
  obtain ⟨w, hw, et⟩ := exists_skip t
  rw [e] at et
  have := Val.of (r := r) (Derives.objNil w hw)
  rw [et]; simpa using this

theorem obj_val {t r : Bytes} (h : InObj t r) : Val (0x7b :: t) r := by
  obtain ⟨xs, m, hm, e⟩ := h
  have := Val.of (r := r) (Derives.obj xs m hm)
  rw [e]; simpa using this

theorem map_sound {P : DV → Prop} {k : KTy} {dec : Dec} {z : DV} (hd : SoundP P dec) (hz : P z) (PS : DV → Prop) :
    SoundP PS (decodeMap k dec z) := by
  intro b p x r _ h
  unfold decodeMap at h
  split at h
  · rename_i hn; injection h with _ h; subst h; exact val_null hn
  · split at h
    · exact absurd h inputErr_ne
    · rename_i c t _
      split at h
      · exact absurd h inputErr_ne
      · rename_i hc
        have hc : c = 0x7b := by simp at hc; exact hc.2
        subst hc
        split at h
        all_goals
          rcases (mapLoopD_sound hd hz _ _ _ _ _ _ h).1 rfl with e | e
          · exact objNil_val e
          · exact obj_val e

theorem structLoopD_sound {P : DV → Prop} {decs : List Dec} (hd : ∀ d ∈ decs, SoundP P d) (hp : ∀ d ∈ decs, Pres P d) (hu : P (.user none))
    {c : DCfg} {names : List Bytes} {input : Bytes} :
    ∀ n first (fs : List DV) b x r, (∀ y ∈ fs, P y) → structLoopD c names decs input n first fs b = .ok x r →
      (first = true → skipSpaces b = 0x7d :: r ∨ InObj b r) ∧ (first = false → ObjTail b r) := by
  intro n
  induction n with
  | zero => intro first m b x r _ h; simp [structLoopD] at h
  | succ n ih =>
    intro first fs b x r hf h
    rw [structLoopD_succ] at h
    split at h
    · rename_i hh
      injection h with _ h
      have : skipSpaces b = 0x7d :: r := by
        cases e : skipSpaces b with
        | nil => rw [e] at hh; simp at hh
        | cons c t => rw [e] at hh h; simp at hh h; rw [hh, h]
      exact ⟨fun _ => .inl this, fun _ => .inl this⟩
    · split at h
      · simp at h
      · simp at h
      · rename_i T e
        have done : ∀ r1, Val T r1 → ObjTail r1 r → (first = true → skipSpaces b = 0x7d :: r ∨ InObj b r) ∧ (first = false → ObjTail b r) := by
          intro r1 h1 h2
          have h3 := memberKey_step (fun b x r hn h => fieldKey_sound h) e h1 h2
          exact ⟨fun hf => .inr (h3.1 hf), h3.2⟩
        unfold structField at h
        split at h
        · split at h
          · simp at h
          · split at h
            · simp at h
            · rename_i e2
              exact done _ (val_parse e2) ((ih _ _ _ _ _ hf h).2 rfl)
        · split at h
          · simp at h
          · rename_i ei
            have hm := List.mem_of_getElem? ei
            split at h
            · simp at h
            · split at h <;> simp at h
            · rename_i e2
              have hcell := fun i => mem_getD (i := i) hu hf
              refine done _ (hd _ hm _ _ _ _ (hcell _) e2) ((ih _ _ _ _ _ ?_ h).2 rfl)
              exact mem_set (hp _ hm _ _ _ _ (hcell _) e2) hf

theorem struct_sound {P : DV → Prop} {decs : List Dec} (hd : ∀ d ∈ decs, SoundP P d) (hp : ∀ d ∈ decs, Pres P d) (hu : P (.user none))
    {c : DCfg} {names : List Bytes} (PS : DV → Prop) (hs : ∀ d, PS (.struct d) ↔ ∀ y ∈ d, P y) : SoundP PS (decodeStruct c names decs) := by
  intro b p x r hp' h
  have hmem : ∀ x ∈ structMem p, P x := by
    cases p <;> simp [structMem]
    case struct xs => exact (hs _).1 hp'
  rw [decodeStruct_eq] at h
  split at h
  · rename_i hn; injection h with _ h; subst h; exact val_null hn
  · split at h
    · exact absurd h inputErr_ne
    · rename_i ch t _
      split at h
      · exact absurd h inputErr_ne
      · rename_i hc
        have hc : ch = 0x7b := by simp at hc; exact hc.2
        subst hc
        rcases (structLoopD_sound hd hp hu _ _ _ _ _ _ hmem h).1 rfl with e | e
        · exact objNil_val e
        · exact obj_val e

theorem ptr_sound {P : DV → Prop} {dec : Dec} {z : DV} (hd : SoundP P dec) (hz : P z) (PS : DV → Prop)
    (hs : ∀ v, PS (.ptr v) ↔ P v) (e : Bool) : SoundP PS (decodePointer e dec z) := by
  intro b p x r hp h
  unfold decodePointer at h
  split at h
  · rename_i hn
    split at h
    · split at h
      · obtain ⟨y, ey, rfl⟩ := map_okD h
        exact hd _ _ _ _ ((hs _).1 hp) ey
      · injection h with _ h; subst h; exact val_null hn
    · injection h with _ h; subst h; exact val_null hn
  · obtain ⟨y, ey, rfl⟩ := map_okD h
    refine hd _ _ _ _ ?_ ey
    cases p <;> first | exact hz | exact (hs _).1 hp

theorem fromString_sound {P : DV → Prop} {dec : Dec} (hd : SoundP P dec) : SoundP P (decodeFromString dec) := by
  intro b p x r hp h
  unfold decodeFromString at h
  split at h
  · exact hd _ _ _ _ hp h
  · split at h
    · simp at h
    · exact absurd h inputErr_ne
    · rename_i e
      split at h
      · simp at h
      · simp at h
      · split at h
        · simp at h
        · injection h with _ h; subst h; exact val_unquote e

theorem fromStringToInt_sound {P : DV → Prop} {l : Lib} {dec : Dec} (hd : SoundP P dec) : SoundP P (decodeFromStringToInt l dec) := by
  intro b p x r hp h
  unfold decodeFromStringToInt at h
  split at h
  · exact hd _ _ _ _ hp h
  · split at h
    · simp at h
    · split at h
      · simp at h
      · split at h
        · simp at h
        · exact absurd h inputErr_ne
        · rename_i e
          simp only [] at h
          split at h
          · simp at h
          · split at h
            · simp at h
            · injection h with _ h; subst h; exact val_unquote e
          · repeat' split at h
            all_goals simp at h

theorem parseInto_sound {P : DV → Prop} {dec : Dec} (hd : SoundP P dec) : SoundP P (parseInto dec) := by
  intro b p x r hp h
  unfold parseInto at h
  split at h
  · simp at h
  · simp at h
  · rename_i e
    injection h with _ h; subst h
    exact (hd _ _ _ _ hp e).skip.rest

/-- `dyn` is sound one level down -/
def DynSound (Q : Ty → Prop) (m : Nat) (dyn : Ty → Dec) : Prop :=
  ∀ m', m = m' + 1 → ∀ t, Q t → SoundP (Held Q · m') (dyn t)

theorem iface_sound {Q : Ty → Prop} {m : Nat} {c : DCfg} {dyn : Ty → Dec} (hd : DynSound Q m dyn) :
    SoundP (Held Q · m) (decodeInterface c dyn) := by
  intro b p x r hp h
  unfold decodeInterface at h
  split at h
  · split at h
    · split at h
      · rename_i hn
        injection h with _ h; subst h
        simp at hn
        exact val_null hn.2
      · split at h
        · simp at h
        · simp at h
        · rename_i e
          injection h with _ h; subst h
          cases m with
          | zero => simp [Held] at hp
          | succ m =>
            simp only [Held] at hp
            exact parseInto_sound (hd m rfl _ hp.1) _ _ _ _ hp.2 e
    · split at h
      · rename_i hn; injection h with _ h; subst h; exact val_null hn
      · exact absurd h (parseInvalid_no _ _ _ _)
  · obtain ⟨v, e⟩ := ifaceValue_rest h
    exact val_parse e

theorem quotedText_val {t : Bytes} {i : Nat} (h : indexByte t 0x22 = some i) (hc : ∀ c ∈ t.take i, 0x20 ≤ c ∧ c ≠ 0x5c) :
    Val (0x22 :: t) (t.drop (i + 1)) := by
  obtain ⟨a, r, rfl, rfl, hn⟩ := indexByte_some h
  simp only [List.take_left] at hc
  have e : (a ++ 0x22 :: r).drop (a.length + 1) = r := by
    rw [← List.drop_drop, List.drop_left]; rfl
  rw [e]
  have hch : JChars a := by
    clear h e
    induction a with
    | nil => exact .nil
    | cons c a ih =>
      have h1 := hc c (by simp)
      refine .plain c a h1.1 (fun hh => hn (by simp [hh])) h1.2 (ih (fun hh => hn (by simp [hh])) fun c hm => hc c (by simp [hm]))
  have := Val.of (r := r) (Derives.str _ (JString.mk a hch))
  simpa using this

mutual
theorem dec_sound {m : Nat} {c : DCfg} {dyn : Ty → Dec} (hl : LibOk c.lib) (hd : DynSound Ty.noArr m dyn) (hpr : DynPres Ty.noArr m dyn) :
    ∀ t : Ty, t.noArr → SoundP (Held Ty.noArr · m) (dec c dyn t)
  | .bool, _ => by
    intro b p x r _ h
    simp only [dec, decodeBool] at h
    split at h
    · rename_i hh; injection h with _ h; subst h
      have e := List.take_append_drop 4 b
      rw [hh.2] at e
      conv => lhs; rw [← e]
      exact Val.of .tru
    · split at h
      · rename_i hh; injection h with _ h; subst h
        have e := List.take_append_drop 5 b
        rw [hh.2] at e
        conv => lhs; rw [← e]
        exact Val.of .fls
      · split at h
        · rename_i hn; injection h with _ h; subst h; exact val_null hn
        · exact absurd h inputErr_ne
  | .int k, _ => by intro b p x r _ h; exact decodeInt_sound k b p x r trivial h
  | .float32, _ | .float64, _ | .number, _ => by
    all_goals
      intro b p x r _ h
      simp only [dec, decodeFloat, decodeNumber] at h
      split at h
      · rename_i hn; injection h with _ h; subst h; exact val_null hn
      · split at h
        · exact absurd h inputErr_ne
        · rename_i e
          first
            | (injection h with _ h; subst h; exact val_number e)
            | (split at h
               · exact absurd h inputErr_ne
               · injection h with _ h; subst h; exact val_number e)
  | .string, _ => by
    intro b p x r _ h
    simp only [dec, decodeString] at h
    split at h
    · rename_i hn; injection h with _ h; subst h; exact val_null hn
    · split at h
      · simp at h
      · split at h
        · exact absurd h inputErr_ne
        · simp at h
      · rename_i e; injection h with _ h; subst h; exact val_unquote e
  | .bytes, _ => by
    intro b p x r _ h
    simp only [dec, decodeBytes] at h
    split at h
    · rename_i hn; injection h with _ h; subst h; exact val_null hn
    · split at h
      · exact absurd h inputErr_ne
      · split at h
        · exact absurd h inputErr_ne
        · split at h
          · split at h
            · obtain ⟨y, ey, rfl⟩ := map_okD h
              exact slice_sound (decodeInt_sound _) trivial (fun _ => True) (by simp) _ _ _ _ trivial ey
            · exact absurd h inputErr_ne
          · split at h
            · simp at h
            · exact absurd h inputErr_ne
            · rename_i e
              split at h
              · simp at h
              · injection h with _ h; subst h; exact val_unquote e
  | .duration, _ => by
    intro b p x r _ h
    simp only [dec, decodeDuration] at h
    split at h
    · rename_i hn; injection h with _ h; subst h; exact val_null hn
    · split at h
      · exact absurd h inputErr_ne
      · split at h
        · split at h
          · exact absurd h inputErr_ne
          · rename_i e
            injection h with _ h; subst h
            obtain ⟨l, e2, hli, _⟩ := parseInt_ok e
            rw [e2]
            exact Val.of (.num _ (intLit_number hli))
        · rename_i hq
          split at h
          · exact absurd h inputErr_ne
          · split at h
            · exact absurd h inputErr_ne
            · rename_i ei
              split at h
              · exact absurd h inputErr_ne
              · rename_i ed
                injection h with _ h; subst h
                have hq := Decidable.not_not.1 hq
                rw [hq]
                exact quotedText_val ei (hl.duration _ _ ed)
  | .time, _ => by
    intro b p x r _ h
    simp only [dec, decodeTime] at h
    split at h
    · rename_i hn; injection h with _ h; subst h; exact val_null hn
    · split at h
      · exact absurd h inputErr_ne
      · split at h
        · exact absurd h inputErr_ne
        · rename_i hq
          split at h
          · exact absurd h inputErr_ne
          · rename_i ei
            split at h
            · exact absurd h inputErr_ne
            · rename_i ed
              injection h with _ h; subst h
              simp only [not_or, Decidable.not_not] at hq
              rw [hq.2]
              exact quotedText_val ei (hl.time _ _ ed)
  | .raw, _ => by
    intro b p x r _ h
    simp only [dec, decodeRawMessage] at h
    split at h
    · exact absurd h inputErr_ne
    · rename_i e; injection h with _ h; subst h; exact val_parse e
  | .iface, _ => by simp only [dec]; exact iface_sound hd
  | .ifaceM em, _ => by
    intro b p x r hp h
    simp only [dec, decodeIfaceM] at h
    split at h
    · rename_i hn; injection h with _ h; subst h; exact val_null hn
    · split at h
      · split at h
        · obtain ⟨y, ey, rfl⟩ := map_okD h
          cases m with
          | zero => simp [Held] at hp
          | succ m =>
            simp only [Held] at hp
            exact parseInto_sound (hd m rfl _ hp.1) _ _ _ _ hp.2 ey
        · exact absurd h (parseInvalid_no _ _ _ _)
        · exact absurd h (typeError_no _ _ _ _)
      · split at h
        · exact parseInto_sound (iface_sound hd) _ _ _ _ hp h
        · exact absurd h (typeError_no _ _ _ _)
  | .slice t, ht => by
    simp only [dec]; simp only [Ty.noArr] at ht
    exact slice_sound (dec_sound hl hd hpr t ht) (held_zero _ m t) _ (by intro d s; simp [Held, heldL_iff])
  | .map k t, ht => by
    simp only [dec]; simp only [Ty.noArr] at ht
    exact map_sound (dec_sound hl hd hpr t ht) (held_zero _ m t) _
  | .mapSI, _ => by simp only [dec]; exact map_sound (iface_sound hd) (by simp [Held]) _
  | .mapRaw, _ => by
    simp only [dec]
    refine map_sound (P := fun _ => True) ?_ trivial _
    intro b p x r _ h
    simp only [decodeRawMessage] at h
    split at h
    · exact absurd h inputErr_ne
    · rename_i e; injection h with _ h; subst h; exact val_parse e
  | .ptr t, ht => by
    simp only [dec]; simp only [Ty.noArr] at ht
    exact ptr_sound (dec_sound hl hd hpr t ht) (held_zero _ m t) _ (by intro v; simp [Held]) _
  | .struct fs, ht => by
    simp only [dec]; simp only [Ty.noArr] at ht
    exact struct_sound (decF_sound hl hd hpr fs ht) (decF_pres hpr fs) (by simp [Held]) _ (by intro d; simp [Held, heldL_iff])
  | .quoted t, ht => by simp only [dec]; simp only [Ty.noArr] at ht; exact fromString_sound (dec_sound hl hd hpr t ht)
  | .quotedInt t, ht => by simp only [dec]; simp only [Ty.noArr] at ht; exact fromStringToInt_sound (dec_sound hl hd hpr t ht)
  | .jsonU f, _ => by
    intro b p x r _ h
    simp only [dec, decodeJSONUnmarshaler] at h
    split at h
    · simp at h
    · rename_i e
      have := val_parse e
      split at h
      · injection h with _ h; subst h; exact this
      · split at h
        · simp at h
        · injection h with _ h; subst h; exact this
  | .textU f, _ => by
    intro b p x r _ h
    simp only [dec, decodeTextUnmarshaler] at h
    split at h
    · simp at h
    · rename_i e
      have := val_parse e
      split at h
      · exact absurd h inputErr_ne
      · split at h
        · split at h
          · injection h with _ h; subst h; exact this
          · simp at h
        · split at h
          · split at h
            · simp at h
            · simp at h
            · split at h
              · simp at h
              · injection h with _ h; subst h; exact this
          · simp at h
  | .unsupported, _ => by intro b p x r _ h; exact absurd h (typeError_no _ _ _ _)
theorem decF_sound {m : Nat} {c : DCfg} {dyn : Ty → Dec} (hl : LibOk c.lib) (hd : DynSound Ty.noArr m dyn) (hpr : DynPres Ty.noArr m dyn) :
    ∀ fs, noArrF fs → ∀ d ∈ decF c dyn fs, SoundP (Held Ty.noArr · m) d
  | [], _ => by simp [decF]
  | (_, t) :: fs, ht => by
    intro d h
    simp only [noArrF] at ht
    simp only [decF, List.mem_cons] at h
    rcases h with rfl | h
    · exact dec_sound hl hd hpr t ht.1
    · exact decF_sound hl hd hpr fs ht.2 d h
end

theorem decN_sound {c : DCfg} (hl : LibOk c.lib) : ∀ n (t : Ty), t.noArr → SoundP (Held Ty.noArr · n) (decN c n t)
  | 0, t, ht => by
    simp only [decN]
    exact dec_sound hl (fun m' e => by omega) (fun m' e => by omega) t ht
  | n + 1, t, ht => by
    simp only [decN]
    refine dec_sound hl (fun m' e t ht => ?_) (fun m' e t _ => ?_) t ht
    · obtain rfl : n = m' := by omega
      exact decN_sound hl n t ht
    · obtain rfl : n = m' := by omega
      exact decN_pres c n t

theorem decN_rej (c : DCfg) : ∀ n t, Rej (decN c n t)
  | 0, t => by simp only [decN]; exact dec_rej c (fun t b p x r h => by simp at h) t
  | n + 1, t => by simp only [decN]; exact dec_rej c (decN_rej c n) t

theorem decN_ref {c : DCfg} (hl : LibOk c.lib) : ∀ n (t : Ty), t.tree → ∀ N, RefP (Held Ty.tree · n) N (decN c n t) (decJN c n t)
  | 0, t, ht, N => by
    simp only [decN, decJN]
    exact dec_ref hl (fun m' e => by omega) (fun t b p x r h => by simp at h) (fun m' e => by omega) t ht N
  | n + 1, t, ht, N => by
    simp only [decN, decJN]
    refine dec_ref hl (fun m' e t ht N => ?_) (decN_rej c n) (fun m' e t _ => ?_) t ht N
    · obtain rfl : n = m' := by omega
      exact decN_ref hl n t ht N
    · obtain rfl : n = m' := by omega
      exact decN_pres c n t

end JC
